import Mathlib.Tactic.Ring
import Mathlib.Tactic.Linarith
import Mathlib.Tactic.NormNum
import Mathlib.Tactic.Positivity
import Mathlib.Tactic.FieldSimp
import Mathlib.Tactic.Common
import Mathlib.Algebra.Order.Ring.Rat
import Mathlib.Algebra.Order.Field.Basic
import Mathlib.Data.List.Infix
import Mathlib.Data.List.Nodup
import Verif.W2V.HuffmanModel

/-!
# C30: the Huffman codes are a complete prefix code of minimal expected length
-/

namespace Verif.W2V

/-! ## Specification -/

/-- no code is a prefix of another -/
def PrefixFree (l : List (List Bool)) : Prop := l.Pairwise (fun a b => ¬ a <+: b ∧ ¬ b <+: a)

/-- the Kraft sum -/
def kraft (l : List (List Bool)) : ℚ := (l.map (fun c => (1 / 2 : ℚ) ^ c.length)).sum

/-- the expected code length, times the corpus size -/
def weighted (counts : List Nat) (code : Nat → List Bool) : Nat :=
  ((List.range counts.length).map (fun k => counts.getD k 0 * (code k).length)).sum

/-! ## The codes of a tree -/

abbrev Entry := Nat × List Bool × List Nat

def push (b : Bool) (p : Nat) (e : Entry) : Entry := (e.1, b :: e.2.1, p :: e.2.2)

def paths (n : Nat) : HTree → List Entry
  | .leaf _ k => [(k, [], [])]
  | .node _ i l r => (paths n r).map (push true (i - n)) ++ (paths n l).map (push false (i - n))

def leafIdx : HTree → List Nat
  | .leaf _ k => [k]
  | .node _ _ l r => leafIdx l ++ leafIdx r

def innerIdx : HTree → List Nat
  | .leaf _ _ => []
  | .node _ i l r => i :: (innerIdx l ++ innerIdx r)

def tsize : HTree → Nat
  | .leaf _ _ => 1
  | .node _ _ l r => tsize l + tsize r + 1

/-- leaves have word indices, inner nodes larger ones -/
def TOk (n : Nat) (t : HTree) : Prop := (∀ k ∈ leafIdx t, k < n) ∧ ∀ i ∈ innerIdx t, n ≤ i

def extend (codes : List Bool) (points : List Nat) (e : Entry) : Entry := (e.1, codes ++ e.2.1, points ++ e.2.2)

theorem assignLoop_eq (n : Nat) : ∀ (fuel : Nat) (st : List (HTree × List Bool × List Nat)),
    (∀ x ∈ st, TOk n x.1) → (st.map (fun x => tsize x.1)).sum ≤ fuel →
    assignLoop n fuel st = some (st.flatMap (fun x => (paths n x.1).map (extend x.2.1 x.2.2))) := by
  intro fuel
  induction fuel with
  | zero =>
    intro st _ hf
    cases st with
    | nil => rfl
    | cons x st =>
      have : 0 < tsize x.1 := by cases x.1 <;> simp [tsize]
      simp only [List.map_cons, List.sum_cons] at hf
      omega
  | succ fuel ih =>
    intro st hok hf
    cases st with
    | nil => rfl
    | cons x st =>
      obtain ⟨t, codes, points⟩ := x
      have hst : ∀ x ∈ st, TOk n x.1 := fun x hx => hok x (List.mem_cons_of_mem _ hx)
      have ht := hok _ List.mem_cons_self
      simp only [List.map_cons, List.sum_cons] at hf
      cases t with
      | leaf c k =>
        have hk : k < n := ht.1 k (by simp [leafIdx])
        simp only [tsize] at hf
        rw [assignLoop, if_pos (by simpa [HTree.index] using hk), ih st hst (by omega)]
        simp [paths, extend, HTree.index]
      | node c i l r =>
        have hi : n ≤ i := ht.2 i (by simp [innerIdx])
        simp only [tsize] at hf
        rw [assignLoop, if_neg (by simp [HTree.index]; omega), ih]
        · simp only [List.flatMap_cons, paths, List.map_append, List.map_map, List.append_assoc]
          congr 2
          · apply List.map_congr_left; intro e _; simp [extend, push]
          · congr 1
            apply List.map_congr_left; intro e _; simp [extend, push]
        · intro x hx
          simp only [List.mem_cons] at hx
          rcases hx with rfl | rfl | hx
          · exact ⟨fun k hk => ht.1 k (by simp [leafIdx, hk]), fun k hk => ht.2 k (by simp [innerIdx, hk])⟩
          · exact ⟨fun k hk => ht.1 k (by simp [leafIdx, hk]), fun k hk => ht.2 k (by simp [innerIdx, hk])⟩
          · exact hst x hx
        · simp only [List.map_cons, List.sum_cons]; omega

theorem paths_fst (n : Nat) (t : HTree) : ((paths n t).map Prod.fst).Perm (leafIdx t) := by
  induction t with
  | leaf c k => simp [paths, leafIdx]
  | node c i l r ihl ihr =>
    simp only [paths, leafIdx, List.map_append, List.map_map]
    have e : ∀ b p (l : List Entry), l.map (Prod.fst ∘ push b p) = l.map Prod.fst := by
      intro b p l; apply List.map_congr_left; intro e _; rfl
    rw [e, e]
    exact (ihr.append ihl).trans List.perm_append_comm

theorem paths_prefixFree (n : Nat) (t : HTree) : PrefixFree ((paths n t).map (fun e => e.2.1)) := by
  unfold PrefixFree
  induction t with
  | leaf c k => simp [paths]
  | node c i l r ihl ihr =>
    simp only [paths, List.map_append, List.map_map]
    rw [List.pairwise_append]
    have e : ∀ b p (l : List Entry), (l.map (fun e => e.2.1)).Pairwise (fun a b => ¬ a <+: b ∧ ¬ b <+: a) →
        (l.map ((fun e => e.2.1) ∘ push b p)).Pairwise (fun a b => ¬ a <+: b ∧ ¬ b <+: a) := by
      intro b p l h
      rw [List.pairwise_map] at h ⊢
      refine h.imp ?_
      intro x y hxy
      simpa [push, List.cons_prefix_cons] using hxy
    refine ⟨e _ _ _ ihr, e _ _ _ ihl, ?_⟩
    intro a ha b hb
    obtain ⟨x, _, rfl⟩ := List.mem_map.mp ha
    obtain ⟨y, _, rfl⟩ := List.mem_map.mp hb
    simp [push, List.cons_prefix_cons]

theorem sum_map_half (b : Bool) (p : Nat) (l : List Entry) :
    ((l.map (push b p)).map (fun e => (1 / 2 : ℚ) ^ e.2.1.length)).sum =
      (1 / 2) * (l.map (fun e => (1 / 2 : ℚ) ^ e.2.1.length)).sum := by
  induction l with
  | nil => simp
  | cons x l ih =>
    simp only [List.map_cons, List.sum_cons, ih, push, List.length_cons, pow_succ]
    ring

theorem paths_kraft (n : Nat) (t : HTree) : ((paths n t).map (fun e => (1 / 2 : ℚ) ^ e.2.1.length)).sum = 1 := by
  induction t with
  | leaf c k => simp [paths]
  | node c i l r ihl ihr =>
    simp only [paths, List.map_append, List.sum_append]
    rw [sum_map_half, sum_map_half, ihl, ihr]
    norm_num

theorem paths_lengths (n : Nat) (t : HTree) : ∀ e ∈ paths n t, e.2.2.length = e.2.1.length := by
  induction t with
  | leaf c k => simp [paths]
  | node c i l r ihl ihr =>
    intro e he
    simp only [paths, List.mem_append, List.mem_map] at he
    rcases he with ⟨x, hx, rfl⟩ | ⟨x, hx, rfl⟩
    · simp [push, ihr x hx]
    · simp [push, ihl x hx]

theorem paths_points (n : Nat) (t : HTree) : ∀ e ∈ paths n t, ∀ q ∈ e.2.2, ∃ i ∈ innerIdx t, q = i - n := by
  induction t with
  | leaf c k => simp [paths]
  | node c i l r ihl ihr =>
    intro e he q hq
    simp only [paths, List.mem_append, List.mem_map] at he
    rcases he with ⟨x, hx, rfl⟩ | ⟨x, hx, rfl⟩
    · simp only [push, List.mem_cons] at hq
      rcases hq with rfl | hq
      · exact ⟨i, by simp [innerIdx], rfl⟩
      · obtain ⟨j, hj, rfl⟩ := ihr x hx q hq
        exact ⟨j, by simp [innerIdx, hj], rfl⟩
    · simp only [push, List.mem_cons] at hq
      rcases hq with rfl | hq
      · exact ⟨i, by simp [innerIdx], rfl⟩
      · obtain ⟨j, hj, rfl⟩ := ihl x hx q hq
        exact ⟨j, by simp [innerIdx, hj], rfl⟩

/-- points identify the prefixes of the codes -/
theorem paths_identify (n : Nat) (t : HTree) (hin : ∀ i ∈ innerIdx t, n ≤ i) (hnd : (innerIdx t).Nodup) :
    ∀ e ∈ paths n t, ∀ f ∈ paths n t, ∀ (d d' : Nat) (q : Nat), e.2.2[d]? = some q → f.2.2[d']? = some q →
      d = d' ∧ e.2.1.take d = f.2.1.take d' := by
  induction t with
  | leaf c k => simp [paths]
  | node c i l r ihl ihr =>
    simp only [innerIdx, List.nodup_cons, List.mem_append, not_or] at hnd
    obtain ⟨⟨hil, hir⟩, hlr⟩ := hnd
    rw [List.nodup_append] at hlr
    obtain ⟨hl, hr, hdis⟩ := hlr
    have hinl : ∀ j ∈ innerIdx l, n ≤ j := fun j hj => hin j (by simp [innerIdx, hj])
    have hinr : ∀ j ∈ innerIdx r, n ≤ j := fun j hj => hin j (by simp [innerIdx, hj])
    have hi := hin i (by simp [innerIdx])
    have side : ∀ e ∈ paths n (.node c i l r), ∃ (s : HTree) (b : Bool) (x : Entry), x ∈ paths n s ∧ e = push b (i - n) x ∧
        ((s = l ∧ b = false) ∨ (s = r ∧ b = true)) := by
      intro e he
      simp only [paths, List.mem_append, List.mem_map] at he
      rcases he with ⟨x, hx, rfl⟩ | ⟨x, hx, rfl⟩
      · exact ⟨r, true, x, hx, rfl, .inr ⟨rfl, rfl⟩⟩
      · exact ⟨l, false, x, hx, rfl, .inl ⟨rfl, rfl⟩⟩
    have notroot : ∀ (s : HTree) (x : Entry), x ∈ paths n s → (s = l ∨ s = r) → ∀ q ∈ x.2.2, q ≠ i - n := by
      intro s x hx hs q hq hqe
      obtain ⟨j, hj, hje⟩ := paths_points n s x hx q hq
      rcases hs with rfl | rfl
      · have := hinl j hj
        have : i = j := by omega
        exact hil (this ▸ hj)
      · have := hinr j hj
        have : i = j := by omega
        exact hir (this ▸ hj)
    intro e he f hf d d' q hed hfd
    obtain ⟨s, b, x, hx, rfl, hs⟩ := side e he
    obtain ⟨s', b', y, hy, rfl, hs'⟩ := side f hf
    have hsl : s = l ∨ s = r := by rcases hs with h | h; exact .inl h.1; exact .inr h.1
    have hsl' : s' = l ∨ s' = r := by rcases hs' with h | h; exact .inl h.1; exact .inr h.1
    cases d with
    | zero =>
      simp only [push, List.getElem?_cons_zero, Option.some.injEq] at hed
      cases d' with
      | zero => simp
      | succ d' =>
        simp only [push, List.getElem?_cons_succ] at hfd
        exact absurd hed.symm (notroot s' y hy hsl' q (List.mem_of_getElem? hfd))
    | succ d =>
      simp only [push, List.getElem?_cons_succ] at hed
      cases d' with
      | zero =>
        simp only [push, List.getElem?_cons_zero, Option.some.injEq] at hfd
        exact absurd hfd.symm (notroot s x hx hsl q (List.mem_of_getElem? hed))
      | succ d' =>
        simp only [push, List.getElem?_cons_succ] at hfd
        have cross : ∀ x ∈ paths n l, ∀ y ∈ paths n r, ∀ d d' : Nat, x.2.2[d]? = some q → y.2.2[d']? = some q → False := by
          intro x hx y hy d d' h1 h2
          obtain ⟨j, hj, hje⟩ := paths_points n l x hx q (List.mem_of_getElem? h1)
          obtain ⟨j', hj', hje'⟩ := paths_points n r y hy q (List.mem_of_getElem? h2)
          have := hinl j hj
          have := hinr j' hj'
          have e : j = j' := by omega
          subst e
          exact hdis j hj j hj' rfl
        rcases hs with ⟨rfl, rfl⟩ | ⟨rfl, rfl⟩
        · rcases hs' with ⟨rfl, rfl⟩ | ⟨rfl, rfl⟩
          · obtain ⟨h1, h2⟩ := ihl hinl hl x hx y hy d d' q hed hfd
            subst h1
            simp [push, h2]
          · exact (cross x hx y hy d d' hed hfd).elim
        · rcases hs' with ⟨rfl, rfl⟩ | ⟨rfl, rfl⟩
          · exact (cross y hy x hx d' d hfd hed).elim
          · obtain ⟨h1, h2⟩ := ihr hinr hr x hx y hy d d' q hed hfd
            subst h1
            simp [push, h2]

/-! ## The loop -/

/-- the heap after `i` iterations -/
structure HInv (n : Nat) (counts : List Nat) (i : Nat) (h : List HTree) : Prop where
  len : h.length + i = n
  leaf : (h.flatMap leafIdx).Perm (List.range n)
  inner : (h.flatMap innerIdx).Perm (List.range' n i)
  root : 0 < i → ∃ t ∈ h, t.index = n + i - 1 ∧ ∃ c l r j, t = .node c j l r

theorem hInv_init (counts : List Nat) : HInv counts.length counts 0 (leaves counts) := by
  refine ⟨by simp [leaves], ?_, ?_, by omega⟩
  · have : (leaves counts).flatMap leafIdx = List.range counts.length := by
      unfold leaves
      rw [List.flatMap_map]
      have : ∀ (l : List Nat) (k : Nat), (l.zipIdx k).flatMap (fun a => leafIdx (HTree.leaf a.1 a.2)) = List.range' k l.length := by
        intro l
        induction l with
        | nil => intro k; rfl
        | cons x l ih =>
          intro k
          rw [List.zipIdx_cons, List.flatMap_cons, ih, List.length_cons, List.range'_succ]
          rfl
      rw [this, List.range_eq_range']
    rw [this]
  · have : (leaves counts).flatMap innerIdx = [] := by
      unfold leaves
      rw [List.flatMap_map, List.flatMap_eq_nil_iff]
      intro x _
      rfl
    rw [this]; simp

theorem hInv_step {n : Nat} {counts : List Nat} {i : Nat} {h r1 r2 : List HTree} {t1 t2 : HTree} (hi : HInv n counts i h)
    (p1 : Pop h t1 r1) (p2 : Pop r1 t2 r2) :
    HInv n counts (i + 1) (.node (t1.count + t2.count) (i + n) t1 t2 :: r2) := by
  have hp : h.Perm (t1 :: t2 :: r2) := p1.1.trans (p2.1.cons t1)
  refine ⟨?_, ?_, ?_, ?_⟩
  · have := hp.length_eq
    have := hi.len
    simp only [List.length_cons] at *
    omega
  · have e : (h.flatMap leafIdx).Perm ((t1 :: t2 :: r2).flatMap leafIdx) := hp.flatMap_right _
    refine List.Perm.trans ?_ (e.symm.trans hi.leaf)
    simp [List.flatMap_cons, leafIdx]
  · have e : (h.flatMap innerIdx).Perm ((t1 :: t2 :: r2).flatMap innerIdx) := hp.flatMap_right _
    have e2 := e.symm.trans hi.inner
    rw [List.range'_concat]
    refine List.Perm.trans ?_ ((e2.append_right [n + 1 * i]))
    simp only [List.flatMap_cons, innerIdx]
    refine List.Perm.trans ?_ List.perm_append_comm
    simp [Nat.add_comm]
  · intro _
    exact ⟨_, List.mem_cons_self, by simp [HTree.index]; omega, _, _, _, _, rfl⟩

theorem hbuild_inv {n : Nat} {counts : List Nat} {i : Nat} {h h' : List HTree} (b : HBuild n i h h')
    (hi : HInv n counts i h) (hn : i ≤ n - 1) : HInv n counts (n - 1) h' := by
  induction b with
  | stop hle => have := Nat.le_antisymm hn hle; subst this; exact hi
  | step hlt p1 p2 _ ih => exact ih (hInv_step hi p1 p2) (by omega)

theorem tsize_eq (t : HTree) : tsize t = (leafIdx t).length + (innerIdx t).length := by
  induction t with
  | leaf c k => rfl
  | node c i l r ihl ihr => simp only [tsize, leafIdx, innerIdx, List.length_append, List.length_cons]; omega

/-- **C30.** For every non-empty vocabulary, whatever way ties are broken: the loop leaves one tree; every
word gets one code; the codes are prefix free with Kraft sum one; every word's points are as many as its
code bits, are valid inner-node numbers, start at the root, and a point stands for exactly one code prefix. -/
theorem C30_codes (counts : List Nat) (hne : counts ≠ []) (h : List HTree)
    (b : HBuild counts.length 0 (leaves counts) h) :
    ∃ out, assignCodes counts.length h = some out ∧ h.length = 1 ∧
      (out.map Prod.fst).Perm (List.range counts.length) ∧
      PrefixFree (out.map (fun e => e.2.1)) ∧ kraft (out.map (fun e => e.2.1)) = 1 ∧
      (∀ e ∈ out, e.2.2.length = e.2.1.length ∧ (∀ q ∈ e.2.2, q < counts.length - 1) ∧
        (2 ≤ counts.length → e.2.2[0]? = some (counts.length - 2))) ∧
      (∀ e ∈ out, ∀ f ∈ out, ∀ (d d' : Nat) (q : Nat), e.2.2[d]? = some q → f.2.2[d']? = some q →
        d = d' ∧ e.2.1.take d = f.2.1.take d') := by
  have hn : 0 < counts.length := List.length_pos_of_ne_nil hne
  have hinv := hbuild_inv b (hInv_init counts) (by omega)
  obtain ⟨hlen, hleaf, hinner, hroot⟩ := hinv
  have hl1 : h.length = 1 := by clear hroot; omega
  obtain ⟨t, rfl⟩ := List.length_eq_one_iff.mp hl1
  simp only [List.flatMap_cons, List.flatMap_nil, List.append_nil] at hleaf hinner
  have hok : TOk counts.length t := by
    constructor
    · intro k hk; exact List.mem_range.mp (hleaf.mem_iff.mp hk)
    · intro k hk
      have := hinner.mem_iff.mp hk
      simp only [List.mem_range'_1] at this
      exact this.1
  have hsize : tsize t ≤ 2 * counts.length := by
    rw [tsize_eq, hleaf.length_eq, hinner.length_eq]; simp; omega
  have hout : assignCodes counts.length [t] = some (paths counts.length t) := by
    show assignLoop counts.length (2 * counts.length) [(t, [], [])] = _
    rw [assignLoop_eq _ _ _ (by intro x hx; rw [List.mem_singleton] at hx; subst hx; exact hok) (by simpa using hsize)]
    have : extend [] [] = id := by funext e; simp [extend]
    simp [this]
  refine ⟨_, hout, hl1, (paths_fst _ t).trans hleaf, paths_prefixFree _ t, ?_, ?_, ?_⟩
  · unfold kraft; rw [List.map_map]; exact paths_kraft _ t
  · intro e he
    refine ⟨paths_lengths _ t e he, ?_, ?_⟩
    · intro q hq
      obtain ⟨i, hi, rfl⟩ := paths_points _ t e he q hq
      have := hinner.mem_iff.mp hi
      simp only [List.mem_range'_1] at this
      omega
    · intro h2
      obtain ⟨t', ht', hidx, c, l, r, j, hj⟩ := hroot (by clear hroot; omega)
      clear hroot
      simp only [List.mem_singleton] at ht'
      subst ht'
      subst hj
      simp only [HTree.index] at hidx
      simp only [paths, List.mem_append, List.mem_map] at he
      rcases he with ⟨x, _, rfl⟩ | ⟨x, _, rfl⟩
      · simp only [push, List.getElem?_cons_zero, Option.some.injEq]; omega
      · simp only [push, List.getElem?_cons_zero, Option.some.injEq]; omega
  · exact paths_identify _ t hok.2 (hinner.nodup_iff.mpr List.nodup_range')

/-- runs exist for every vocabulary: there is always something to pop -/
theorem C30_total (counts : List Nat) : ∃ h, HBuild counts.length 0 (leaves counts) h := by
  have minPop : ∀ h : List HTree, h ≠ [] → ∃ t r, Pop h t r := by
    intro h
    induction h with
    | nil => intro h; exact absurd rfl h
    | cons x h ih =>
      intro _
      by_cases hh : h = []
      · subst hh; exact ⟨x, [], List.Perm.refl _, by simp⟩
      · obtain ⟨t, r, hp, hle⟩ := ih hh
        by_cases hx : x.count ≤ t.count
        · refine ⟨x, h, List.Perm.refl _, ?_⟩
          intro y hy
          rcases List.mem_cons.mp (hp.mem_iff.mp hy) with rfl | hy
          · exact hx
          · exact le_trans hx (hle y hy)
        · refine ⟨t, x :: r, (hp.cons x).trans (List.Perm.swap _ _ _), ?_⟩
          intro y hy
          rcases List.mem_cons.mp hy with rfl | hy
          · omega
          · exact hle y hy
  have key : ∀ (m i : Nat) (h : List HTree), h.length + i = counts.length → counts.length - 1 - i = m →
      ∃ h', HBuild counts.length i h h' := by
    intro m
    induction m with
    | zero => intro i h _ hm; exact ⟨h, .stop (by omega)⟩
    | succ m ih =>
      intro i h hl hm
      obtain ⟨t1, r1, p1⟩ := minPop h (by intro h0; subst h0; simp at hl; omega)
      have l1 := p1.1.length_eq
      simp only [List.length_cons] at l1
      obtain ⟨t2, r2, p2⟩ := minPop r1 (by intro h0; subst h0; simp at l1; omega)
      have l2 := p2.1.length_eq
      simp only [List.length_cons] at l2
      obtain ⟨h', hb⟩ := ih (i + 1) (.node (t1.count + t2.count) (i + counts.length) t1 t2 :: r2)
        (by simp only [List.length_cons]; omega) (by omega)
      exact ⟨h', .step (by omega) p1 p2 hb⟩
  exact key _ 0 _ (by simp [leaves]) rfl

/-! ## Optimality -/

def kl (ls : List Nat) : ℚ := (ls.map (fun l => (1 / 2 : ℚ) ^ l)).sum

theorem kl_perm {a b : List Nat} (h : a.Perm b) : kl a = kl b := by
  unfold kl; exact (h.map _).sum_eq

theorem kl_int (M : Nat) (ls : List Nat) (h : ∀ l ∈ ls, l ≤ M) : ∃ k : Nat, kl ls * 2 ^ M = k := by
  induction ls with
  | nil => exact ⟨0, by simp [kl]⟩
  | cons l ls ih =>
    obtain ⟨k, hk⟩ := ih (fun x hx => h x (List.mem_cons_of_mem _ hx))
    refine ⟨2 ^ (M - l) + k, ?_⟩
    have e : kl (l :: ls) = (1 / 2 : ℚ) ^ l + kl ls := by simp [kl]
    have hl := h l List.mem_cons_self
    have e2 : (2 : ℚ) ^ M = 2 ^ l * 2 ^ (M - l) := by rw [← pow_add]; congr 1; omega
    rw [e, add_mul, hk, e2]
    push_cast
    rw [← mul_assoc, ← mul_pow]
    norm_num

theorem kl_nonneg (ls : List Nat) : 0 ≤ kl ls := by
  induction ls with
  | nil => simp [kl]
  | cons l ls ih =>
    have e : kl (l :: ls) = (1 / 2 : ℚ) ^ l + kl ls := by simp [kl]
    rw [e]
    have : (0 : ℚ) < (1 / 2) ^ l := by positivity
    linarith

/-- the cost of lengths attached to weighted items -/
def cost {β : Type} (f : β → Nat) (ps : List (β × Nat)) : Nat := (ps.map (fun p => f p.1 * p.2)).sum

/-- giving the longest length to the lightest item does not raise the cost -/
theorem swap1 {β : Type} (f : β → Nat) (a : Nat) : ∀ (ps : List (β × Nat)) (la : Nat), (∀ x ∈ ps, a ≤ f x.1) →
    ∃ la' ps', ps'.map Prod.fst = ps.map Prod.fst ∧ (la' :: ps'.map Prod.snd).Perm (la :: ps.map Prod.snd) ∧
      (∀ x ∈ ps', x.2 ≤ la') ∧ a * la' + cost f ps' ≤ a * la + cost f ps := by
  intro ps
  induction ps with
  | nil => intro la _; exact ⟨la, [], rfl, List.Perm.refl _, by simp, le_refl _⟩
  | cons p ps ih =>
    intro la h
    obtain ⟨x, l⟩ := p
    obtain ⟨la1, ps1, h1, h2, h3, h4⟩ := ih la (fun y hy => h y (List.mem_cons_of_mem _ hy))
    have hax : a ≤ f x := h (x, l) List.mem_cons_self
    have e : ∀ (x : β) (l : Nat) (ps : List (β × Nat)), cost f ((x, l) :: ps) = f x * l + cost f ps := by
      intro x l ps; simp [cost]
    by_cases hl : l ≤ la1
    · refine ⟨la1, (x, l) :: ps1, by simp [h1], ?_, ?_, ?_⟩
      · simp only [List.map_cons]
        exact (List.Perm.swap _ _ _).trans ((h2.cons l).trans (List.Perm.swap _ _ _))
      · intro y hy
        rcases List.mem_cons.mp hy with rfl | hy
        · exact hl
        · exact h3 y hy
      · rw [e, e]; omega
    · refine ⟨l, (x, la1) :: ps1, by simp [h1], ?_, ?_, ?_⟩
      · simp only [List.map_cons]
        exact (h2.cons l).trans (List.Perm.swap _ _ _)
      · intro y hy
        rcases List.mem_cons.mp hy with rfl | hy
        · show la1 ≤ l; omega
        · exact le_trans (h3 y hy) (by omega)
      · rw [e, e]
        obtain ⟨u, hu⟩ := Nat.exists_eq_add_of_le hax
        obtain ⟨v, hv⟩ := Nat.exists_eq_add_of_le (show la1 ≤ l by omega)
        have : a * l + f x * la1 ≤ a * la1 + f x * l := by
          rw [hu, hv]; nlinarith
        omega

/-- the two lightest items can be merged -/
theorem merge_ok {β : Type} (f : β → Nat) (a b : Nat) (hab : a ≤ b) (ps : List (β × Nat)) (la lb : Nat)
    (hb : ∀ x ∈ ps, b ≤ f x.1) (hk : kl (la :: lb :: ps.map Prod.snd) ≤ 1) :
    ∃ l' ps', ps'.map Prod.fst = ps.map Prod.fst ∧ kl (l' :: ps'.map Prod.snd) ≤ 1 ∧
      (a + b) * l' + cost f ps' + (a + b) ≤ a * la + (b * lb + cost f ps) := by
  let g : β ⊕ Unit → Nat := fun x => match x with | .inl y => f y | .inr _ => b
  let lift : β × Nat → (β ⊕ Unit) × Nat := fun p => (.inl p.1, p.2)
  have hlift : ∀ ps : List (β × Nat), cost g (ps.map lift) = cost f ps := by
    intro ps; simp [cost, g, lift, Function.comp_def]
  -- give the longest length to `a`
  have step1 : ∃ (la1 lb1 : Nat) (ps1 : List (β × Nat)), ps1.map Prod.fst = ps.map Prod.fst ∧
      (la1 :: lb1 :: ps1.map Prod.snd).Perm (la :: lb :: ps.map Prod.snd) ∧ lb1 ≤ la1 ∧ (∀ x ∈ ps1, x.2 ≤ la1) ∧
      a * la1 + (b * lb1 + cost f ps1) ≤ a * la + (b * lb + cost f ps) := by
    obtain ⟨la1, qs, h1, h2, h3, h4⟩ := swap1 g a ((.inr (), lb) :: ps.map lift) la (by
      intro x hx
      rcases List.mem_cons.mp hx with rfl | hx
      · exact hab
      · obtain ⟨y, hy, rfl⟩ := List.mem_map.mp hx
        exact le_trans hab (hb y hy))
    have hqs : ∃ (lb1 : Nat) (ps1 : List (β × Nat)), qs = (.inr (), lb1) :: ps1.map lift ∧ ps1.map Prod.fst = ps.map Prod.fst := by
      cases qs with
      | nil => simp at h1
      | cons q qs =>
        simp only [List.map_cons, List.cons.injEq, List.map_map] at h1
        obtain ⟨q1, lb1⟩ := q
        have hrec : ∀ (qs : List ((β ⊕ Unit) × Nat)) (ps : List (β × Nat)),
            qs.map Prod.fst = ps.map (Prod.fst ∘ lift) → ∃ ps1 : List (β × Nat), qs = ps1.map lift ∧ ps1.map Prod.fst = ps.map Prod.fst := by
          intro qs
          induction qs with
          | nil => intro ps h; cases ps with
            | nil => exact ⟨[], rfl, rfl⟩
            | cons p ps => simp at h
          | cons q qs ih =>
            intro ps h
            cases ps with
            | nil => simp at h
            | cons p ps =>
              simp only [List.map_cons, List.cons.injEq] at h
              obtain ⟨ps1, e1, e2⟩ := ih ps h.2
              refine ⟨(p.1, q.2) :: ps1, ?_, by simp [e2]⟩
              rw [e1, List.map_cons]
              congr 1
              exact Prod.ext h.1 rfl
        obtain ⟨ps1, e1, e2⟩ := hrec qs ps h1.2
        have hq1 : q1 = .inr () := h1.1
        exact ⟨lb1, ps1, by rw [e1, hq1], e2⟩
    obtain ⟨lb1, ps1, rfl, hps⟩ := hqs
    have hsnd : ∀ ps : List (β × Nat), (ps.map lift).map Prod.snd = ps.map Prod.snd := by
      intro ps; simp [lift, Function.comp_def]
    have hc : ∀ (lb : Nat) (ps : List (β × Nat)), cost g ((.inr (), lb) :: ps.map lift) = b * lb + cost f ps := by
      intro lb ps; rw [← hlift]; simp [cost, g]
    rw [hc, hc] at h4
    simp only [List.map_cons, hsnd] at h2
    exact ⟨la1, lb1, ps1, hps, h2, h3 _ List.mem_cons_self,
      fun x hx => h3 (lift x) (List.mem_cons_of_mem _ (List.mem_map_of_mem hx)), h4⟩
  obtain ⟨la1, lb1, ps1, e1, e2, e3, e4, e5⟩ := step1
  -- and the next longest to `b`
  have hb1 : ∀ x ∈ ps1, b ≤ f x.1 := by
    intro x hx
    have : x.1 ∈ ps.map Prod.fst := by rw [← e1]; exact List.mem_map_of_mem hx
    obtain ⟨y, hy, hyx⟩ := List.mem_map.mp this
    rw [← hyx]; exact hb y hy
  obtain ⟨lb2, ps2, f1, f2, f3, f4⟩ := swap1 f b ps1 lb1 hb1
  have hlb2 : lb2 ≤ la1 := by
    have : lb2 ∈ lb1 :: ps1.map Prod.snd := f2.mem_iff.mp List.mem_cons_self
    rcases List.mem_cons.mp this with rfl | h
    · exact e3
    · obtain ⟨x, hx, rfl⟩ := List.mem_map.mp h; exact e4 x hx
  have hk2 : kl (la1 :: lb2 :: ps2.map Prod.snd) ≤ 1 := by
    rw [kl_perm (f2.cons la1), kl_perm e2]; exact hk
  -- `b`'s length for both
  have ecl : ∀ l ls, kl (l :: ls) = (1 / 2 : ℚ) ^ l + kl ls := by intro l ls; simp [kl]
  have hboth : kl (lb2 :: lb2 :: ps2.map Prod.snd) ≤ 1 := by
    obtain ⟨k, hk3⟩ := kl_int lb2 (lb2 :: ps2.map Prod.snd) (by
      intro l hl
      rcases List.mem_cons.mp hl with rfl | hl
      · exact le_refl _
      · obtain ⟨x, hx, rfl⟩ := List.mem_map.mp hl; exact f3 x hx)
    rw [ecl] at hk2 ⊢
    have hpos : (0 : ℚ) < (1 / 2) ^ la1 := by positivity
    have hM : (0 : ℚ) < 2 ^ lb2 := by positivity
    have hlt : (k : ℚ) < 2 ^ lb2 := by
      rw [← hk3]
      have : kl (lb2 :: ps2.map Prod.snd) < 1 := by linarith
      calc kl (lb2 :: ps2.map Prod.snd) * 2 ^ lb2 < 1 * 2 ^ lb2 := mul_lt_mul_of_pos_right this hM
        _ = 2 ^ lb2 := one_mul _
    have hlt' : k < 2 ^ lb2 := by exact_mod_cast hlt
    have hle : ((k + 1 : Nat) : ℚ) ≤ ((2 ^ lb2 : Nat) : ℚ) := by exact_mod_cast hlt'
    have hh : (1 / 2 : ℚ) ^ lb2 * 2 ^ lb2 = 1 := by rw [← mul_pow]; norm_num
    have : ((1 / 2 : ℚ) ^ lb2 + kl (lb2 :: ps2.map Prod.snd)) * 2 ^ lb2 ≤ 1 * 2 ^ lb2 := by
      rw [add_mul, hh, hk3, one_mul]
      push_cast at hle
      linarith
    exact le_of_mul_le_mul_right this hM
  have hpos : 1 ≤ lb2 := by
    by_contra h0
    have : lb2 = 0 := by omega
    subst this
    rw [ecl, ecl] at hboth
    have := kl_nonneg (ps2.map Prod.snd)
    norm_num at hboth
    linarith
  refine ⟨lb2 - 1, ps2, by rw [f1, e1], ?_, ?_⟩
  · rw [ecl] at hboth ⊢
    rw [ecl] at hboth
    have : (1 / 2 : ℚ) ^ (lb2 - 1) = (1 / 2) ^ lb2 + (1 / 2) ^ lb2 := by
      obtain ⟨m, rfl⟩ : ∃ m, lb2 = m + 1 := ⟨lb2 - 1, by omega⟩
      simp only [Nat.add_sub_cancel, pow_succ]
      ring
    rw [this]; linarith
  · obtain ⟨m, rfl⟩ : ∃ m, lb2 = m + 1 := ⟨lb2 - 1, by omega⟩
    simp only [Nat.add_sub_cancel]
    have h1 : a * (m + 1) ≤ a * la1 := Nat.mul_le_mul_left a hlb2
    have h2 : (a + b) * m + (a + b) = a * (m + 1) + b * (m + 1) := by ring
    omega

/-- the weighted code length of a tree -/
def wl : HTree → Nat
  | .leaf _ _ => 0
  | .node _ _ l r => wl l + wl r + (l.count + r.count)

theorem build_optimal {n i : Nat} {h h' : List HTree} (b : HBuild n i h h') : ∀ t, h' = [t] →
    ∀ ps : List (HTree × Nat), (ps.map Prod.fst).Perm h → kl (ps.map Prod.snd) ≤ 1 →
    wl t ≤ (ps.map (fun p => wl p.1)).sum + cost HTree.count ps := by
  induction b with
  | stop _ =>
    intro t ht ps hp _
    subst ht
    obtain ⟨p, hp1⟩ : ∃ p, ps = [p] := by
      have := hp.length_eq
      simp only [List.length_map, List.length_cons, List.length_nil] at this
      exact List.length_eq_one_iff.mp this
    subst hp1
    simp only [List.map_cons, List.map_nil, List.perm_singleton, List.cons.injEq, and_true] at hp
    subst hp
    simp
  | @step i h t1 r1 t2 r2 h' hlt p1 p2 _ ih =>
    intro t ht ps hp hk
    have split : ∀ (ps : List (HTree × Nat)) (t : HTree) (r : List HTree), (ps.map Prod.fst).Perm (t :: r) →
        ∃ l qs, ps.Perm ((t, l) :: qs) ∧ (qs.map Prod.fst).Perm r := by
      intro ps t r hp
      have hm : t ∈ ps.map Prod.fst := hp.mem_iff.mpr List.mem_cons_self
      obtain ⟨x, hx, rfl⟩ := List.mem_map.mp hm
      obtain ⟨a, c, rfl⟩ := List.append_of_mem hx
      refine ⟨x.2, a ++ c, List.perm_middle, ?_⟩
      have : ((a ++ x :: c).map Prod.fst).Perm (x.1 :: (a ++ c).map Prod.fst) :=
        (List.perm_middle (a := x)).map Prod.fst
      exact (this.symm.trans hp).cons_inv
    obtain ⟨l1, qs1, hq1, hr1⟩ := split ps t1 r1 (hp.trans p1.1)
    obtain ⟨l2, qs2, hq2, hr2⟩ := split qs1 t2 r2 (hr1.trans p2.1)
    have hall : ps.Perm ((t1, l1) :: (t2, l2) :: qs2) := hq1.trans (hq2.cons _)
    have h12 : t1.count ≤ t2.count := p1.2 t2 (p2.1.mem_iff.mpr List.mem_cons_self)
    obtain ⟨l', qs3, g1, g2, g3⟩ := merge_ok HTree.count t1.count t2.count h12 qs2 l1 l2 (by
      intro x hx
      exact p2.2 x.1 (hr2.mem_iff.mp (List.mem_map_of_mem hx))) (by
      have e := kl_perm (hall.map Prod.snd)
      simp only [List.map_cons] at e
      rw [← e]; exact hk)
    have hres := ih t ht ((.node (t1.count + t2.count) (i + n) t1 t2, l') :: qs3)
      (by simp only [List.map_cons, g1]; exact hr2.cons _) (by simpa using g2)
    have ew : (ps.map (fun p => wl p.1)).sum = wl t1 + (wl t2 + (qs2.map (fun p => wl p.1)).sum) := by
      rw [(hall.map _).sum_eq]; rfl
    have ec : cost HTree.count ps = t1.count * l1 + (t2.count * l2 + cost HTree.count qs2) := by
      unfold cost; rw [(hall.map _).sum_eq]; rfl
    have eq3 : (qs3.map (fun p => wl p.1)).sum = (qs2.map (fun p => wl p.1)).sum := by
      have e : ∀ qs : List (HTree × Nat), qs.map (fun p => wl p.1) = (qs.map Prod.fst).map wl := by
        intro qs; simp [Function.comp_def]
      rw [e, e, g1]
    have ec3 : cost HTree.count ((HTree.node (t1.count + t2.count) (i + n) t1 t2, l') :: qs3) =
        (t1.count + t2.count) * l' + cost HTree.count qs3 := rfl
    rw [ec3] at hres
    simp only [List.map_cons, List.sum_cons, wl, eq3] at hres
    rw [ew, ec]
    omega

/-- leaf counts are the words' counts, inner counts are sums -/
def CountOk (counts : List Nat) : HTree → Prop
  | .leaf c k => c = counts.getD k 0
  | .node c _ l r => c = l.count + r.count ∧ CountOk counts l ∧ CountOk counts r

theorem build_countOk (counts : List Nat) {n i : Nat} {h h' : List HTree} (b : HBuild n i h h')
    (hc : ∀ t ∈ h, CountOk counts t) : ∀ t ∈ h', CountOk counts t := by
  induction b with
  | stop _ => exact hc
  | step _ p1 p2 _ ih =>
    apply ih
    have hc' := fun t ht => hc t ((p1.1.trans (p2.1.cons _)).mem_iff.mpr ht)
    intro t ht
    rcases List.mem_cons.mp ht with rfl | ht
    · exact ⟨rfl, hc' _ (by simp), hc' _ (by simp)⟩
    · exact hc' t (by simp [ht])

theorem paths_weight (n : Nat) (counts : List Nat) (t : HTree) (hc : CountOk counts t) :
    ((paths n t).map (fun e => counts.getD e.1 0)).sum = t.count ∧
    ((paths n t).map (fun e => counts.getD e.1 0 * e.2.1.length)).sum = wl t := by
  induction t with
  | leaf c k => simp only [CountOk] at hc; simp [paths, HTree.count, wl, hc]
  | node c i l r ihl ihr =>
    obtain ⟨hc1, hc2, hc3⟩ := hc
    obtain ⟨l1, l2⟩ := ihl hc2
    obtain ⟨r1, r2⟩ := ihr hc3
    have e : ∀ b p (l : List Entry), ((l.map (push b p)).map (fun e => counts.getD e.1 0)).sum =
        (l.map (fun e => counts.getD e.1 0)).sum := by
      intro b p l; simp [Function.comp_def, push]
    have e2 : ∀ b p (l : List Entry), ((l.map (push b p)).map (fun e => counts.getD e.1 0 * e.2.1.length)).sum =
        (l.map (fun e => counts.getD e.1 0 * e.2.1.length)).sum + (l.map (fun e => counts.getD e.1 0)).sum := by
      intro b p l
      induction l with
      | nil => rfl
      | cons x l ih =>
        simp only [List.map_cons, List.sum_cons, ih, push, List.length_cons, Nat.mul_add, Nat.mul_one]
        omega
    simp only [paths, List.map_append, List.sum_append]
    rw [e, e, e2, e2, l1, l2, r1, r2]
    simp only [HTree.count, wl, hc1]
    omega

/-- prefix-free codes satisfy Kraft's inequality -/
theorem kraft_le : ∀ (m : Nat) (l : List (List Bool)), (l.map List.length).sum + l.length ≤ m → PrefixFree l → kraft l ≤ 1 := by
  intro m
  induction m with
  | zero =>
    intro l hm _
    cases l with
    | nil => simp [kraft]
    | cons x l => simp at hm
  | succ m ih =>
    intro l hm hp
    by_cases hnil : [] ∈ l
    · -- an empty code excludes all others
      have : l = [[]] := by
        obtain ⟨a, b, rfl⟩ := List.append_of_mem hnil
        unfold PrefixFree at hp
        rw [List.pairwise_append] at hp
        obtain ⟨_, h2, h3⟩ := hp
        have ha : a = [] := by
          cases a with
          | nil => rfl
          | cons x a => exact absurd (List.nil_prefix) (h3 x List.mem_cons_self [] List.mem_cons_self).2
        have hb : b = [] := by
          cases b with
          | nil => rfl
          | cons x b =>
            rw [List.pairwise_cons] at h2
            exact absurd (List.nil_prefix) (h2.1 x List.mem_cons_self).1
        rw [ha, hb]; rfl
      rw [this]; simp [kraft]
    · -- split by the first bit
      let tails : Bool → List (List Bool) → List (List Bool) := fun b l =>
        l.filterMap (fun c => match c with | [] => none | x :: c => if x = b then some c else none)
      have hsum : ∀ l : List (List Bool), [] ∉ l → kraft l = (1 / 2) * kraft (tails true l) + (1 / 2) * kraft (tails false l) ∧
          ((tails true l).map List.length).sum + (tails true l).length ≤ (l.map List.length).sum ∧
          ((tails false l).map List.length).sum + (tails false l).length ≤ (l.map List.length).sum := by
        intro l
        induction l with
        | nil => intro _; simp [kraft, tails]
        | cons c l ihl =>
          intro hn
          simp only [List.mem_cons, not_or] at hn
          obtain ⟨h1, h2, h3⟩ := ihl hn.2
          cases c with
          | nil => exact absurd rfl hn.1
          | cons x c =>
            cases x with
            | true =>
              have e1 : tails true ((true :: c) :: l) = c :: tails true l := by simp [tails]
              have e2 : tails false ((true :: c) :: l) = tails false l := by simp [tails]
              rw [e1, e2]
              simp only [kraft, List.map_cons, List.sum_cons, List.length_cons] at *
              refine ⟨?_, by omega, by omega⟩
              rw [h1, pow_succ]; ring
            | false =>
              have e1 : tails false ((false :: c) :: l) = c :: tails false l := by simp [tails]
              have e2 : tails true ((false :: c) :: l) = tails true l := by simp [tails]
              rw [e1, e2]
              simp only [kraft, List.map_cons, List.sum_cons, List.length_cons] at *
              refine ⟨?_, by omega, by omega⟩
              rw [h1, pow_succ]; ring
      have hpf : ∀ b, PrefixFree (tails b l) := by
        intro b
        unfold PrefixFree at hp ⊢
        simp only [tails]
        rw [List.pairwise_filterMap]
        refine hp.imp ?_
        intro x y hxy u hu v hv
        cases x with
        | nil => simp at hu
        | cons x1 x =>
          cases y with
          | nil => simp at hv
          | cons y1 y =>
            simp only [Option.ite_none_right_eq_some, Option.some.injEq] at hu hv
            obtain ⟨rfl, rfl⟩ := hu
            obtain ⟨rfl, rfl⟩ := hv
            simpa [List.cons_prefix_cons] using hxy
      obtain ⟨h1, h2, h3⟩ := hsum l hnil
      have hlen : l = [] ∨ 0 < l.length := by cases l <;> simp
      rcases hlen with rfl | hlen
      · simp [kraft]
      · have ht := ih (tails true l) (by omega) (hpf true)
        have hf := ih (tails false l) (by omega) (hpf false)
        rw [h1]; linarith

/-- **C30, optimality.** No other assignment of prefix-free codes to the words has a smaller total code
length over the corpus, whatever way ties were broken. -/
theorem C30_optimal (counts : List Nat) (hne : counts ≠ []) (h : List HTree)
    (b : HBuild counts.length 0 (leaves counts) h) (out : List (Nat × List Bool × List Nat))
    (hout : assignCodes counts.length h = some out) (code : Nat → List Bool)
    (hcode : PrefixFree ((List.range counts.length).map code)) :
    (out.map (fun e => counts.getD e.1 0 * e.2.1.length)).sum ≤ weighted counts code := by
  have hn : 0 < counts.length := List.length_pos_of_ne_nil hne
  have hinv := hbuild_inv b (hInv_init counts) (by omega)
  obtain ⟨hlen, hleaf, hinner, hroot⟩ := hinv
  clear hroot
  have hl1 : h.length = 1 := by omega
  obtain ⟨t, rfl⟩ := List.length_eq_one_iff.mp hl1
  simp only [List.flatMap_cons, List.flatMap_nil, List.append_nil] at hleaf hinner
  have hok : TOk counts.length t := by
    constructor
    · intro k hk; exact List.mem_range.mp (hleaf.mem_iff.mp hk)
    · intro k hk
      have := hinner.mem_iff.mp hk
      simp only [List.mem_range'_1] at this
      exact this.1
  have hsize : tsize t ≤ 2 * counts.length := by
    rw [tsize_eq, hleaf.length_eq, hinner.length_eq]; simp; omega
  have hout' : assignCodes counts.length [t] = some (paths counts.length t) := by
    show assignLoop counts.length (2 * counts.length) [(t, [], [])] = _
    rw [assignLoop_eq _ _ _ (by intro x hx; rw [List.mem_singleton] at hx; subst hx; exact hok) (by simpa using hsize)]
    have : extend [] [] = id := by funext e; simp [extend]
    simp [this]
  rw [hout'] at hout
  obtain rfl := Option.some.inj hout
  have hcl : ∀ t ∈ leaves counts, CountOk counts t := by
    intro t ht
    obtain ⟨p, hp, rfl⟩ := List.mem_map.mp ht
    have := List.mem_zipIdx_iff_getElem?.mp hp
    simp [CountOk, List.getD_eq_getElem?_getD, this]
  have hct := build_countOk counts b hcl t (by simp)
  rw [(paths_weight counts.length counts t hct).2]
  let ps : List (HTree × Nat) := counts.zipIdx.map (fun p => (HTree.leaf p.1 p.2, (code p.2).length))
  have hps1 : ps.map Prod.fst = leaves counts := by simp [ps, leaves, Function.comp_def]
  have hidx : counts.zipIdx.map Prod.snd = List.range counts.length := by
    rw [List.zipIdx_map_snd, List.range_eq_range']
  have hps2 : kl (ps.map Prod.snd) ≤ 1 := by
    have e : kl (ps.map Prod.snd) = kraft ((List.range counts.length).map code) := by
      rw [← hidx]; simp only [kl, kraft, ps, List.map_map, Function.comp_def]
    rw [e]
    exact kraft_le _ _ (le_refl _) hcode
  have hres := build_optimal b t rfl ps (by rw [hps1]) hps2
  have hz : (ps.map (fun p => wl p.1)).sum = 0 := by
    have : ps.map (fun p => wl p.1) = ps.map (fun _ => 0) := by
      apply List.map_congr_left
      intro p hp
      obtain ⟨q, _, rfl⟩ := List.mem_map.mp hp
      rfl
    rw [this]; simp
  have hcost : cost HTree.count ps = weighted counts code := by
    unfold cost weighted
    rw [← hidx, List.map_map, List.map_map]
    congr 1
    apply List.map_congr_left
    intro p hp
    have := List.mem_zipIdx_iff_getElem?.mp hp
    simp [HTree.count, List.getD_eq_getElem?_getD, this]
  omega

theorem prefixFree_perm {a b : List (List Bool)} (h : a.Perm b) (hp : PrefixFree a) : PrefixFree b :=
  h.pairwise hp (fun hxy => ⟨hxy.2, hxy.1⟩)

/-- **C30, frequent words get short codes.** A word that occurs more often than another has a code that is
no longer. -/
theorem C30_frequent_no_longer (counts : List Nat) (hne : counts ≠ []) (h : List HTree)
    (b : HBuild counts.length 0 (leaves counts) h) (out : List (Nat × List Bool × List Nat))
    (hout : assignCodes counts.length h = some out) (e f : Nat × List Bool × List Nat) (he : e ∈ out) (hf : f ∈ out)
    (hlt : counts.getD e.1 0 < counts.getD f.1 0) : f.2.1.length ≤ e.2.1.length := by
  obtain ⟨out', h1, _, h3, h4, _⟩ := C30_codes counts hne h b
  rw [hout] at h1
  obtain rfl := Option.some.inj h1
  have hnd : (out.map Prod.fst).Nodup := h3.nodup_iff.mpr List.nodup_range
  let c : Nat → List Bool := fun k => ((out.find? (fun e => e.1 = k)).map (fun e => e.2.1)).getD []
  have hc : ∀ e ∈ out, c e.1 = e.2.1 := by
    intro e he
    simp only [c]
    cases hfd : out.find? (fun x => decide (x.1 = e.1)) with
    | none =>
      have := List.find?_eq_none.mp hfd e he
      simp at this
    | some x =>
      have hx := List.mem_of_find?_eq_some hfd
      have hx1 := List.find?_some hfd
      simp only [decide_eq_true_eq] at hx1
      rw [List.inj_on_of_nodup_map hnd hx he hx1]
      rfl
  have hce := hc e he
  have hcf := hc f hf
  have hei : e.1 ∈ List.range counts.length := h3.mem_iff.mp (List.mem_map_of_mem he)
  have hfi : f.1 ∈ List.range counts.length := h3.mem_iff.mp (List.mem_map_of_mem hf)
  have hne' : f.1 ≠ e.1 := by intro h; rw [h] at hlt; exact lt_irrefl _ hlt
  let sw : Nat → Nat := fun k => if k = e.1 then f.1 else if k = f.1 then e.1 else k
  obtain ⟨rest, hrest⟩ : ∃ rest, rest = ((List.range counts.length).erase e.1).erase f.1 := ⟨_, rfl⟩
  have hperm : (List.range counts.length).Perm (e.1 :: f.1 :: rest) := by
    rw [hrest]
    refine (List.perm_cons_erase hei).trans (List.Perm.cons _ (List.perm_cons_erase ?_))
    exact (List.mem_erase_of_ne hne').mpr hfi
  have hndr : (e.1 :: f.1 :: rest).Nodup := hperm.nodup_iff.mp List.nodup_range
  simp only [List.nodup_cons, List.mem_cons, not_or] at hndr
  have hsw : ∀ k ∈ rest, sw k = k := by
    intro k hk
    have h1 : k ≠ e.1 := fun h => hndr.1.2 (h ▸ hk)
    have h2 : k ≠ f.1 := fun h => hndr.2.1 (h ▸ hk)
    simp [sw, h1, h2]
  have hswe : sw e.1 = f.1 := by simp [sw]
  have hswf : sw f.1 = e.1 := by simp [sw, hne']
  have hpf : PrefixFree ((List.range counts.length).map (fun k => c (sw k))) := by
    have hp1 : (out.map (fun e => e.2.1)).Perm ((List.range counts.length).map c) := by
      have : out.map (fun e => e.2.1) = (out.map Prod.fst).map c := by
        rw [List.map_map]; apply List.map_congr_left; intro x hx; exact (hc x hx).symm
      rw [this]; exact h3.map c
    have hp2 : ((List.range counts.length).map sw).Perm (List.range counts.length) := by
      refine (hperm.map sw).trans (List.Perm.trans ?_ hperm.symm)
      rw [List.map_cons, List.map_cons, hswe, hswf, List.map_congr_left hsw, List.map_id']
      exact List.Perm.swap _ _ _
    have := prefixFree_perm (hp1.trans (hp2.symm.map c)) h4
    rwa [List.map_map] at this
  have hopt := C30_optimal counts hne h b out hout (fun k => c (sw k)) hpf
  unfold weighted at hopt
  have hl : (out.map (fun e => counts.getD e.1 0 * e.2.1.length)).sum =
      ((List.range counts.length).map (fun k => counts.getD k 0 * (c k).length)).sum := by
    have : out.map (fun e => counts.getD e.1 0 * e.2.1.length) =
        (out.map Prod.fst).map (fun k => counts.getD k 0 * (c k).length) := by
      rw [List.map_map]; apply List.map_congr_left; intro x hx; simp only [Function.comp_apply, hc x hx]
    rw [this]; exact (h3.map _).sum_eq
  rw [hl, (hperm.map _).sum_eq, (hperm.map _).sum_eq] at hopt
  simp only [List.map_cons, List.sum_cons, hswe, hswf, hce, hcf] at hopt
  have hr : rest.map (fun k => counts.getD k 0 * (c (sw k)).length) = rest.map (fun k => counts.getD k 0 * (c k).length) := by
    apply List.map_congr_left; intro k hk; rw [hsw k hk]
  rw [hr] at hopt
  by_contra hcon
  obtain ⟨u, hu⟩ := Nat.exists_eq_add_of_lt hlt
  obtain ⟨v, hv⟩ := Nat.exists_eq_add_of_lt (Nat.lt_of_not_le hcon)
  rw [hu, hv] at hopt
  nlinarith

/-- a concrete run: counts 5, 2, 1 -/
example : ∃ h, HBuild 3 0 (leaves [5, 2, 1]) h ∧ assignCodes 3 h =
    some [(0, [true], [1]), (1, [false, true], [1, 0]), (2, [false, false], [1, 0])] := by
  refine ⟨[.node 8 4 (.node 3 3 (.leaf 1 2) (.leaf 2 1)) (.leaf 5 0)], ?_, by decide +kernel⟩
  refine .step (t1 := .leaf 1 2) (r1 := [.leaf 5 0, .leaf 2 1]) (t2 := .leaf 2 1) (r2 := [.leaf 5 0]) (by decide)
    ⟨by decide, by decide⟩ ⟨by decide, by decide⟩ ?_
  refine .step (t1 := .node 3 3 (.leaf 1 2) (.leaf 2 1)) (r1 := [.leaf 5 0]) (t2 := .leaf 5 0) (r2 := []) (by decide)
    ⟨by decide, by decide⟩ ⟨by decide, by decide⟩ ?_
  exact .stop (by decide)

end Verif.W2V
