import Verif.Upgrade.Model

/-!
# C113: loading models of earlier versions
-/

namespace Verif.Upgrade
open Verif PyDict

variable {R α : Type}

/-! ### Specification -/

/-- A vocabulary as an earlier version wrote it, for the list of words `l`: the keys are strings, no key and no
attribute of an entry occurs twice, the `index` of an entry is the position of its word in the list, and an
attribute has the same type `τ` in all entries, for `sample_int` that of a number. -/
structure OldOk (l : List Key) (vocab : PyDict Key OldV) (τ : String → Ty) : Prop where
  strings : ∀ p ∈ vocab, ∃ s, p.1 = .str s
  nodup : vocab.WF
  attrs : ∀ p ∈ vocab, PyDict.WF p.2
  index : ∀ p ∈ vocab, ∃ i : Nat, PyDict.get? p.2 "index" = some (.int i) ∧ l[i]? = some p.1
  typed : ∀ p ∈ vocab, ∀ q ∈ p.2, q.2.ty = τ q.1
  sample : τ "sample_int" ≠ .obj

/-- What becomes of the value of an attribute: `sample_int` is cast to 32 bits. -/
def Kept (a : String) (old new : Val) : Prop :=
  if a = "sample_int" then toUint32 old = .ok new else new = old

/-! ### Arrays of attributes -/

/-- The element of an array of attributes. -/
def look (e : PyDict String Arr) (a : String) (i : Nat) : Option Val := (e.get? a).bind (fun r => r.vals[i]?)

/-- All arrays have the length `n` and the type `τ`. -/
def Good (n : Nat) (τ : String → Ty) (e : PyDict String Arr) : Prop :=
  ∀ a r, e.get? a = some r → r.ty = τ a ∧ r.vals.length = n

/-- What the arrays contain after the writes `W` (attribute, position, value). -/
structure Inv (n : Nat) (τ : String → Ty) (W : List (String × Nat × Val)) (e : PyDict String Arr) : Prop where
  good : Good n τ e
  dom : ∀ a, e.get? a = none ↔ ∀ w ∈ W, w.1 ≠ a
  vals : ∀ w ∈ W, look e w.1 w.2.1 = some w.2.2
  zeros : ∀ a j, j < n → (∃ w ∈ W, w.1 = a) → (∀ w ∈ W, ¬ (w.1 = a ∧ w.2.1 = j)) → look e a j = some (τ a).zero

theorem inv_nil (n : Nat) (τ : String → Ty) : Inv n τ [] [] where
  good := by intro a r h; simp at h
  dom := by intro a; simp
  vals := by intro w hw; simp at hw
  zeros := by rintro a j _ ⟨w, hw, _⟩; simp at hw

theorem getIndex_int {m : PyDict Key Int} (hm : ∀ k ∈ m.keys, ∃ s, k = .str s) (l : List Key) (i : Nat)
    (hi : i < l.length) : getIndex m l (.int i) = .ok i := by
  have : m.get? (.int i) = none := by
    rw [get?_eq_none_iff]
    intro h
    obtain ⟨s, hs⟩ := hm _ h
    cases hs
  simp [getIndex, PyDict.getD, this, hi]

theorem set_step {τ : String → Ty} {W : List (String × Nat × Val)} {e : PyDict String Arr} {m : PyDict Key Int}
    {l : List Key} (h : Inv l.length τ W e) (hm : ∀ k ∈ m.keys, ∃ s, k = .str s) (i : Nat)
    (hi : i < l.length) (a : String) (v : Val) (hv : v.ty = τ a)
    (hnew : ∀ w ∈ W, ¬ (w.1 = a ∧ w.2.1 = i)) :
    ∃ e', setVecattr m l e (.int i) a v = .ok e' ∧ Inv l.length τ (W ++ [(a, i, v)]) e' := by
  -- the array that is written to
  obtain ⟨e₁, r, he₁, hr, hlen, hty, hother, hsame⟩ : ∃ e₁ r, allocate l.length e a v.ty = .ok e₁ ∧ e₁.get? a = some r ∧
      r.vals.length = l.length ∧ r.ty = τ a ∧ (∀ b, b ≠ a → e₁.get? b = e.get? b) ∧
      (e.get? a = some r ∨ (e.get? a = none ∧ r.vals = List.replicate l.length (τ a).zero)) := by
    cases hg : e.get? a with
    | none =>
      refine ⟨e.set a ⟨v.ty, List.replicate l.length v.ty.zero⟩, _, ?_, get?_set_self _ _ _, by simp, hv, ?_,
        .inr ⟨rfl, by rw [hv]⟩⟩
      · simp [allocate, hg]
      · intro b hb
        exact get?_set_ne _ (Ne.symm hb) _
    | some r =>
      obtain ⟨h1, h2⟩ := h.good a r hg
      exact ⟨e, r, by simp [allocate, hg, hv, h1, h2], hg, h2, h1, fun _ _ => rfl, .inl rfl⟩
  refine ⟨e₁.set a ⟨r.ty, r.vals.set i v⟩, ?_, ?_⟩
  · show (allocate l.length e a v.ty >>= _) = _
    rw [he₁]
    show (getIndex m l (.int i) >>= _) = _
    rw [getIndex_int hm l i hi]
    show (match e₁.get? a with | none => _ | some a => _) = _
    simp only [hr]
    simp [hlen, hi]
  · have hl : ∀ b j, look (e₁.set a ⟨r.ty, r.vals.set i v⟩) b j =
        if b = a then (if j = i then some v else r.vals[j]?) else look e b j := by
      intro b j
      by_cases hb : b = a
      · subst hb
        simp only [look, get?_set_self, Option.bind_some, if_true, List.getElem?_set]
        by_cases hj : i = j
        · subst hj; simp [hlen, hi]
        · rw [if_neg hj, if_neg (Ne.symm hj)]
      · rw [if_neg hb]
        simp only [look, get?_set_ne _ (Ne.symm hb), hother b hb]
    refine ⟨?_, ?_, ?_, ?_⟩
    · intro b x hx
      by_cases hb : b = a
      · subst hb
        rw [get?_set_self] at hx
        cases hx
        exact ⟨hty, by simp [hlen]⟩
      · rw [get?_set_ne _ (Ne.symm hb), hother b hb] at hx
        exact h.good b x hx
    · intro b
      by_cases hb : b = a
      · subst hb
        rw [get?_set_self]
        simp only [reduceCtorEq, false_iff]
        intro hc
        exact hc (b, i, v) (by simp) rfl
      · rw [get?_set_ne _ (Ne.symm hb), hother b hb, h.dom b]
        constructor
        · intro hW w hw
          rcases List.mem_append.mp hw with hw | hw
          · exact hW w hw
          · simp at hw; subst hw; exact Ne.symm hb
        · intro hW w hw
          exact hW w (List.mem_append_left _ hw)
    · intro w hw
      rw [hl]
      rcases List.mem_append.mp hw with hw | hw
      · have hne := hnew w hw
        have hval := h.vals w hw
        by_cases hb : w.1 = a
        · rw [if_pos hb, if_neg (fun hj => hne ⟨hb, hj⟩)]
          rcases hsame with hs | ⟨hs, _⟩
          · rw [hb] at hval
            simpa [look, hs] using hval
          · rw [hb] at hval
            simp [look, hs] at hval
        · rw [if_neg hb]
          exact hval
      · simp at hw; subst hw; simp
    · intro b j hj hex hno
      rw [hl]
      by_cases hb : b = a
      · subst hb
        have hji : j ≠ i := fun hji => hno (b, i, v) (by simp) ⟨rfl, hji.symm⟩
        rw [if_pos rfl, if_neg hji]
        rcases hsame with hs | ⟨hs, hz⟩
        · have hW : ∃ w ∈ W, w.1 = b := by
            by_contra hc
            push Not at hc
            have := (h.dom b).mpr hc
            rw [this] at hs
            cases hs
          have := h.zeros b j hj hW (fun w hw => hno w (List.mem_append_left _ hw))
          simpa [look, hs] using this
        · rw [hz]
          simp [hj]
      · rw [if_neg hb]
        refine h.zeros b j hj ?_ (fun w hw => hno w (List.mem_append_left _ hw))
        obtain ⟨w, hw, hwb⟩ := hex
        rcases List.mem_append.mp hw with hw | hw
        · exact ⟨w, hw, hwb⟩
        · simp at hw; subst hw; exact absurd hwb (Ne.symm hb)

/-- The writes of one entry. -/
def entryWrites (i : Nat) (v : List (String × Val)) : List (String × Nat × Val) := v.map fun q => (q.1, i, q.2)

theorem attrs_step {τ : String → Ty} {m : PyDict Key Int} {l : List Key}
    (hm : ∀ k ∈ m.keys, ∃ s, k = .str s) (i : Nat) (hi : i < l.length) (v : List (String × Val)) :
    ∀ {W e}, Inv l.length τ W e → (v.map Prod.fst).Nodup → (∀ q ∈ v, q.2.ty = τ q.1) →
      (∀ w ∈ W, ∀ q ∈ v, ¬ (w.1 = q.1 ∧ w.2.1 = i)) →
      ∃ e', setAttrs m l i v e = .ok e' ∧ Inv l.length τ (W ++ entryWrites i v) e' := by
  induction v with
  | nil => intro W e h _ _ _; exact ⟨e, rfl, by simpa [entryWrites] using h⟩
  | cons q rest ih =>
    obtain ⟨a, x⟩ := q
    intro W e h hnd hty hno
    obtain ⟨e₁, h₁, hinv⟩ := set_step h hm i hi a x (hty (a, x) (by simp))
      (fun w hw => hno w hw (a, x) (by simp))
    simp only [List.map_cons, List.nodup_cons] at hnd
    obtain ⟨e₂, h₂, hinv₂⟩ := ih hinv hnd.2 (fun q hq => hty q (by simp [hq])) (by
      intro w hw q hq
      rcases List.mem_append.mp hw with hw | hw
      · exact hno w hw q (by simp [hq])
      · simp at hw; subst hw
        rintro ⟨h1, _⟩
        exact hnd.1 (by rw [show a = q.1 from h1]; exact List.mem_map_of_mem hq))
    refine ⟨e₂, ?_, by simpa [entryWrites] using hinv₂⟩
    show (setVecattr m l e (.int i) a x >>= _) = _
    rw [h₁]
    exact h₂

/-- The position an entry gives. -/
def idx (v : OldV) : Nat := match PyDict.get? v "index" with | some (.int i) => i.toNat | _ => 0

/-- The writes of a vocabulary. -/
def writes (vocab : List (Key × OldV)) : List (String × Nat × Val) :=
  vocab.flatMap fun p => entryWrites (idx p.2) p.2

theorem vocab_step {τ : String → Ty} {l : List Key} (vocab : List (Key × OldV)) :
    ∀ {W m e}, Inv l.length τ W e → (∀ k ∈ PyDict.keys m, ∃ s, k = Key.str s) →
      (∀ p ∈ vocab, ∃ s, p.1 = .str s) → (vocab.map Prod.fst).Nodup → (∀ p ∈ vocab, PyDict.WF p.2) →
      (∀ p ∈ vocab, p.1 ∉ m.keys) →
      (∀ p ∈ vocab, ∃ i : Nat, PyDict.get? p.2 "index" = some (.int i) ∧ l[i]? = some p.1) →
      (∀ p ∈ vocab, ∀ q ∈ p.2, q.2.ty = τ q.1) →
      (∀ w ∈ W, ∀ p ∈ vocab, w.2.1 ≠ idx p.2) →
      ∃ e', upVocab l vocab m e = .ok (m ++ vocab.map (fun p => (p.1, (idx p.2 : Int))), e') ∧
        Inv l.length τ (W ++ writes vocab) e' := by
  induction vocab with
  | nil => intro W m e h _ _ _ _ _ _ _ _; exact ⟨e, by simp [upVocab], by simpa [writes] using h⟩
  | cons p rest ih =>
    obtain ⟨k, v⟩ := p
    intro W m e h hm hs hnd hwf hnew hidx hty hno
    obtain ⟨i, hi, hli⟩ := hidx (k, v) (by simp)
    have hidxv : idx v = i := by simp only [idx, hi]; simp
    have hil : i < l.length := (List.getElem?_eq_some_iff.mp hli).1
    have hkm := hnew (k, v) (by simp)
    have hset : m.set k (i : Int) = m ++ [(k, (i : Int))] := set_of_not_mem hkm _
    have hm' : ∀ x ∈ (m ++ [(k, (i : Int))]).keys, ∃ s, x = Key.str s := by
      intro x hx
      rw [keys_append, List.mem_append] at hx
      rcases hx with hx | hx
      · exact hm x hx
      · simp at hx; subst hx; exact hs (_, v) (by simp)
    obtain ⟨e₁, h₁, hinv⟩ := attrs_step hm' i hil v h (hwf (k, v) (by simp))
      (hty (k, v) (by simp)) (fun w hw q _ hc => hno w hw (k, v) (by simp) (hc.2.trans hidxv.symm))
    simp only [List.map_cons, List.nodup_cons] at hnd
    obtain ⟨e₂, h₂, hinv₂⟩ := ih hinv hm' (fun p hp => hs p (by simp [hp])) hnd.2
      (fun p hp => hwf p (by simp [hp]))
      (by
        intro p hp hc
        rw [keys_append, List.mem_append] at hc
        rcases hc with hc | hc
        · exact hnew p (by simp [hp]) hc
        · simp at hc
          exact hnd.1 (by rw [← hc]; exact List.mem_map_of_mem hp))
      (fun p hp => hidx p (by simp [hp])) (fun p hp => hty p (by simp [hp]))
      (by
        intro w hw p hp
        rcases List.mem_append.mp hw with hw | hw
        · exact hno w hw p (by simp [hp])
        · simp only [entryWrites, List.mem_map] at hw
          obtain ⟨q, _, rfl⟩ := hw
          obtain ⟨j, hj, hlj⟩ := hidx p (by simp [hp])
          have hjv : idx p.2 = j := by simp only [idx, hj]; simp
          show i ≠ idx p.2
          rw [hjv]
          rintro rfl
          rw [hli] at hlj
          cases hlj
          exact hnd.1 (List.mem_map_of_mem (f := Prod.fst) hp))
    refine ⟨e₂, ?_, ?_⟩
    · simp only [upVocab, hi]
      rw [hset]
      show (setAttrs (m ++ [(k, (i : Int))]) l i v e >>= _) = _
      rw [h₁]
      show upVocab l rest (m ++ [(k, (i : Int))]) e₁ = _
      rw [h₂]
      simp [hidxv]
    · rw [show writes ((k, v) :: rest) = entryWrites (idx v) v ++ writes rest from rfl, hidxv, ← List.append_assoc]
      exact hinv₂

theorem mapM_ok {f : Val → Except Err Val} (l : List Val) (h : ∀ v ∈ l, ∃ w, f v = .ok w) :
    ∃ l', l.mapM f = .ok l' ∧ l'.length = l.length ∧
      ∀ (i : Nat) (v : Val), l[i]? = some v → ∃ w, f v = .ok w ∧ l'[i]? = some w := by
  induction l with
  | nil => exact ⟨[], rfl, rfl, by intro i v hv; simp at hv⟩
  | cons v l ih =>
    obtain ⟨w, hw⟩ := h v (by simp)
    obtain ⟨l', h1, h2, h3⟩ := ih (fun v hv => h v (by simp [hv]))
    refine ⟨w :: l', ?_, by simp [h2], ?_⟩
    · rw [List.mapM_cons, hw, h1]; rfl
    · intro i x hx
      cases i with
      | zero => simp at hx; subst hx; exact ⟨w, hw, by simp⟩
      | succ i => exact h3 i x (by simpa using hx)

theorem uint32_ok {v : Val} (h : v.ty ≠ .obj) : ∃ w, toUint32 v = .ok w := by
  cases v with
  | int z => exact ⟨_, rfl⟩
  | float q => exact ⟨_, rfl⟩
  | obj n => exact absurd rfl h

theorem writes_mem {vocab : List (Key × OldV)} {w : String × Nat × Val} :
    w ∈ writes vocab ↔ ∃ p ∈ vocab, ∃ q ∈ p.2, w = (q.1, idx p.2, q.2) := by
  simp only [writes, entryWrites, List.mem_flatMap, List.mem_map]
  constructor
  · rintro ⟨p, hp, q, hq, rfl⟩; exact ⟨p, hp, q, hq, rfl⟩
  · rintro ⟨p, hp, q, hq, rfl⟩; exact ⟨p, hp, q, hq, rfl⟩

theorem kept_look {τ : String → Ty} {n : Nat} {W : List (String × Nat × Val)} {e : PyDict String Arr}
    (h : Inv n τ W e) (hW : ∀ w ∈ W, w.2.2.ty = τ w.1 ∧ w.2.1 < n) (hs : τ "sample_int" ≠ .obj) :
    ∃ e', castSample e = .ok e' ∧ (∀ a, e'.get? a = none ↔ e.get? a = none) ∧
      ∀ a i v, look e a i = some v → ∃ v', look e' a i = some v' ∧ Kept a v v' := by
  unfold castSample
  cases hg : e.get? "sample_int" with
  | none =>
    refine ⟨e, rfl, fun _ => Iff.rfl, ?_⟩
    intro a i v hv
    refine ⟨v, hv, ?_⟩
    unfold Kept
    rw [if_neg]
    rintro rfl
    simp [look, hg] at hv
  | some r =>
    have hty : ∀ v ∈ r.vals, v.ty ≠ .obj := by
      intro v hv
      obtain ⟨i, hi, rfl⟩ := List.mem_iff_getElem.mp hv
      have hl : look e "sample_int" i = some r.vals[i] := by simp [look, hg, hi]
      have hin : i < n := by rw [← (h.good _ _ hg).2]; exact hi
      by_cases hex : ∃ w ∈ W, w.1 = "sample_int" ∧ w.2.1 = i
      · obtain ⟨w, hw, h1, h2⟩ := hex
        have hv := h.vals w hw
        rw [h1, h2, hl] at hv
        have := (hW w hw).1
        rw [Option.some.inj hv, this, h1]
        exact hs
      · push Not at hex
        have hz := h.zeros "sample_int" i hin (by
          by_contra hc
          push Not at hc
          rw [(h.dom "sample_int").mpr hc] at hg
          cases hg) (fun w hw hc => hex w hw hc.1 hc.2)
        rw [hl] at hz
        rw [Option.some.inj hz]
        cases hτ : τ "sample_int" with
        | int => simp [Ty.zero, Val.ty]
        | float => simp [Ty.zero, Val.ty]
        | obj => exact absurd hτ hs
    obtain ⟨l', h1, h2, h3⟩ := mapM_ok r.vals (fun v hv => uint32_ok (hty v hv))
    refine ⟨e.set "sample_int" ⟨.int, l'⟩, ?_, ?_, ?_⟩
    · show (r.vals.mapM toUint32 >>= _) = _
      rw [h1]; rfl
    · intro a
      by_cases ha : a = "sample_int"
      · subst ha; simp [hg]
      · rw [get?_set_ne _ (Ne.symm ha)]
    · intro a i v hv
      by_cases ha : a = "sample_int"
      · subst ha
        simp only [look, hg, Option.bind_some] at hv
        obtain ⟨w, hw, hl⟩ := h3 i v hv
        exact ⟨w, by simp [look, hl], by simp [Kept, hw]⟩
      · exact ⟨v, by simpa [look, get?_set_ne _ (Ne.symm ha)] using hv, by simp [Kept, ha]⟩

/-! ### Word vectors -/

/-- **C113.** The word vectors of an earlier version, with `index2word` or `index2entity`, and with `syn0` or `vectors`: loading
succeeds; the list of words, the rows and their length are those of the old object; every word is at its old
position; every attribute of a word has its old value (`sample_int` cast to 32 bits); an attribute that a
word did not have but another one has is 0 (of its type); and an attribute that no word had is unknown. -/
theorem C113_old_vectors (s : KV R) (l : List Key) (vocab : PyDict Key OldV) (τ : String → Ty)
    (vs : List R × Nat) (h : OldOk l vocab τ)
    (hd : s.doctags = false) (hk : s.indexToKey = none) (hw : s.index2word.or s.index2entity = some l)
    (hv : s.vectors.or s.syn0 = some vs)
    (hx : s.expandos = none) (hki : s.keyToIndex = none) (hvo : s.vocab = some vocab) :
    ∃ s' m e, loadKV s = .ok s' ∧ s'.indexToKey = some (some l) ∧ s'.vectors = some vs ∧
      (s'.vectorSize = if s.vectors = none then some vs.2 else s.vectorSize) ∧ s'.keyToIndex = some m ∧ s'.expandos = some e ∧
      m.keys = vocab.keys ∧
      ∀ k v, (k, v) ∈ vocab →
        (∃ i : Nat, v.get? "index" = some (.int i) ∧ getIndex m l k = .ok i ∧ l[i]? = some k) ∧
        (∀ a x, v.get? a = some x → ∃ x', getVecattr m l e k a = .ok x' ∧ Kept a x x') ∧
        (∀ a, v.get? a = none → (∃ p ∈ vocab, PyDict.get? p.2 a ≠ none) →
          ∃ x', getVecattr m l e k a = .ok x' ∧ Kept a (τ a).zero x') ∧
        (∀ a, (∀ p ∈ vocab, PyDict.get? p.2 a = none) → getVecattr m l e k a = .error .key) := by
  obtain ⟨e₁, he₁, hinv⟩ := vocab_step (l := l) (τ := τ) vocab (W := []) (m := []) (e := []) (inv_nil _ _)
    (by simp) h.strings h.nodup h.attrs (by simp) h.index h.typed (by simp)
  simp only [List.nil_append] at he₁ hinv
  have hidx : ∀ p ∈ vocab, PyDict.get? p.2 "index" = some (.int (idx p.2)) ∧ l[idx p.2]? = some p.1 := by
    intro p hp
    obtain ⟨i, hi, hli⟩ := h.index p hp
    have : idx p.2 = i := by simp only [idx, hi]; simp
    rw [this]
    exact ⟨hi, hli⟩
  have hW : ∀ w ∈ writes vocab, w.2.2.ty = τ w.1 ∧ w.2.1 < l.length := by
    intro w hw
    obtain ⟨p, hp, q, hq, rfl⟩ := writes_mem.mp hw
    exact ⟨h.typed p hp q hq, (List.getElem?_eq_some_iff.mp (hidx p hp).2).1⟩
  obtain ⟨e₂, he₂, hdom, hkept⟩ := kept_look hinv hW h.sample
  set m : PyDict Key Int := vocab.map (fun p => (p.1, (idx p.2 : Int))) with hmdef
  have hmk : m.keys = vocab.keys := by simp [hmdef, PyDict.keys]
  have hgi : ∀ p ∈ vocab, getIndex m l p.1 = .ok (idx p.2) := by
    intro p hp
    have hm : m.get? p.1 = some (idx p.2 : Int) :=
      get?_of_mem (by rw [PyDict.WF, hmk]; exact h.nodup) (List.mem_map.mpr ⟨p, hp, rfl⟩)
    simp [getIndex, PyDict.getD, hm]
  have hmem : ∀ p ∈ vocab, ∀ a x, PyDict.get? p.2 a = some x → (a, idx p.2, x) ∈ writes vocab := by
    intro p hp a x hax
    exact writes_mem.mpr ⟨p, hp, (a, x), mem_of_get? hax, rfl⟩
  have hgv : ∀ p ∈ vocab, ∀ a x, look e₂ a (idx p.2) = some x → getVecattr m l e₂ p.1 a = .ok x := by
    intro p hp a x hlk
    show (getIndex m l p.1 >>= _) = _
    rw [hgi p hp]
    show (match e₂.get? a with | none => _ | some a => _) = _
    unfold look at hlk
    cases hg : e₂.get? a with
    | none => simp [hg] at hlk
    | some r =>
      simp only [hg, Option.bind_some] at hlk
      simp [hlk]
  refine ⟨{ s with
      indexToKey := some (some l), index2word := none, index2entity := none, vectors := some vs
      syn0 := if s.vectors = none then none else s.syn0
      vectorSize := if s.vectors = none then some vs.2 else s.vectorSize, norms := some (s.norms.getD none)
      vocab := none, keyToIndex := some m, expandos := some e₂ }, m, e₂, ?_, rfl, rfl, rfl, rfl, rfl, hmk, ?_⟩
  · have h1 : fixKeys s = { s with indexToKey := some (some l), index2word := none, index2entity := none } := by
      simp only [fixKeys, hk]
      cases hi : s.index2word with
      | none => rw [hi, Option.none_or] at hw; simp [hw]
      | some l' => rw [hi, Option.some_or] at hw; simp [hw]
    unfold loadKV
    simp only [hd, Bool.false_eq_true, if_false]
    show (fixVectors (fixKeys s) >>= _) = _
    rw [h1]
    have h2 : fixVectors { s with indexToKey := some (some l), index2word := none, index2entity := none } =
        .ok { s with
          indexToKey := some (some l), index2word := none, index2entity := none, vectors := some vs
          syn0 := if s.vectors = none then none else s.syn0
          vectorSize := if s.vectors = none then some vs.2 else s.vectorSize } := by
      cases hvv : s.vectors with
      | none => rw [hvv, Option.none_or] at hv; simp [fixVectors, hv, hvv]
      | some v => rw [hvv, Option.some_or] at hv; simp [fixVectors, hvv, hv]
    rw [h2]
    show (match s.keyToIndex with | some _ => _ | none => _) = _
    simp only [hki]
    simp only [upconvertVocab, hvo, hx, Option.getD_none]
    show (upVocab l vocab [] [] >>= _) = _
    rw [he₁]
    show (castSample e₁ >>= _) = _
    rw [he₂]
    simp only [hd]
    rfl
  · intro k v hkv
    refine ⟨⟨idx v, (hidx _ hkv).1, hgi _ hkv, (hidx _ hkv).2⟩, ?_, ?_, ?_⟩
    · intro a x hax
      have hl := hinv.vals _ (hmem _ hkv a x hax)
      obtain ⟨x', hx', hK⟩ := hkept a _ x hl
      exact ⟨x', hgv _ hkv a x' hx', hK⟩
    · rintro a hnone ⟨p, hp, hpa⟩
      obtain ⟨y, hy⟩ := Option.ne_none_iff_exists'.mp hpa
      have hl := hinv.zeros a (idx v) (List.getElem?_eq_some_iff.mp (hidx _ hkv).2).1
        ⟨_, hmem p hp a y hy, rfl⟩ (by
          intro w hw hc
          obtain ⟨p', hp', q, hq, rfl⟩ := writes_mem.mp hw
          obtain ⟨h1, h2⟩ := hc
          have hkk : p'.1 = k := by
            have ha := (hidx p' hp').2
            have hb := (hidx _ hkv).2
            rw [show idx p'.2 = idx v from h2] at ha
            rw [ha] at hb
            exact Option.some.inj hb
          have hvv : p'.2 = v := by
            have ha := get?_of_mem h.nodup (show (p'.1, p'.2) ∈ vocab from hp')
            rw [hkk, get?_of_mem h.nodup hkv] at ha
            exact (Option.some.inj ha).symm
          have : PyDict.get? p'.2 q.1 = some q.2 := get?_of_mem (h.attrs p' hp') hq
          rw [hvv, show q.1 = a from h1, hnone] at this
          cases this)
      obtain ⟨x', hx', hK⟩ := hkept a _ _ hl
      exact ⟨x', hgv _ hkv a x' hx', hK⟩
    · intro a hno
      have : e₂.get? a = none := by
        rw [hdom, hinv.dom]
        intro w hw hc
        obtain ⟨p', hp', q, hq, rfl⟩ := writes_mem.mp hw
        have := get?_of_mem (h.attrs p' hp') hq
        rw [show q.1 = a from hc, hno p' hp'] at this
        cases this
      show (getIndex m l k >>= _) = _
      rw [hgi _ hkv]
      show (match e₂.get? a with | none => _ | some a => _) = _
      simp only [this]

/-- Two words of an earlier version, the second without `sample_int`. -/
def oldVocab : PyDict Key OldV :=
  [(.str "b", [("count", .int 3), ("index", .int 1)]),
   (.str "a", [("count", .int 5), ("index", .int 0), ("sample_int", .int (2 ^ 32 + 7)), ("code", .obj 1)])]

/-- An object of an earlier version. -/
def oldKV : KV Nat where
  doctags := false
  indexToKey := none
  index2word := some [.str "a", .str "b"]
  index2entity := none
  vectors := none
  syn0 := some ([10, 20], 4)
  vectorSize := none
  norms := none
  expandos := none
  keyToIndex := none
  vocab := some oldVocab

example : OldOk [.str "a", .str "b"] oldVocab (fun a => if a = "code" then .obj else .int) where
  strings := by simp [oldVocab]
  nodup := by simp [oldVocab, PyDict.WF, PyDict.keys]
  attrs := by simp [oldVocab, PyDict.WF, PyDict.keys]
  index := by
    intro p hp
    simp only [oldVocab, List.mem_cons, List.not_mem_nil, or_false] at hp
    rcases hp with rfl | rfl
    · exact ⟨1, rfl, rfl⟩
    · exact ⟨0, rfl, rfl⟩
  typed := by
    intro p hp q hq
    simp only [oldVocab, List.mem_cons, List.not_mem_nil, or_false] at hp
    rcases hp with rfl | rfl <;> simp only [List.mem_cons, List.not_mem_nil, or_false] at hq
    · rcases hq with rfl | rfl <;> rfl
    · rcases hq with rfl | rfl | rfl | rfl <;> rfl
  sample := by simp

example : (loadKV oldKV).map (fun s => (s.keyToIndex, s.vectors, s.vectorSize)) =
    .ok (some [(.str "b", 1), (.str "a", 0)], some ([10, 20], 4), some 4) := rfl

/-- **C113.** Loading word vectors of the current version changes nothing. -/
theorem C113_current_vectors (s : KV R) (l : List Key) (vs : List R × Nat) (nm : Option (List ℚ))
    (e : PyDict String Arr) (m : PyDict Key Int)
    (hd : s.doctags = false) (hk : s.indexToKey = some (some l)) (hv : s.vectors = some vs)
    (hn : s.norms = some nm) (hx : s.expandos = some e) (hki : s.keyToIndex = some m) :
    loadKV s = .ok s := by
  obtain ⟨d, i2k, i2w, i2e, v, s0, sz, n, x, ki, vo⟩ := s
  simp only at hd hk hv hn hx hki
  subst hd; subst hk; subst hv; subst hn; subst hx; subst hki
  rfl

/-- **C113, finding.** Vectors of documents of an earlier version (those with `doctags`) cannot be loaded: the
conversion begins with an assignment to `vocab` that always raises. -/
theorem C113_doctags (s : KV R) (h : s.doctags = true) : loadKV s = .error .attr := by
  unfold loadKV
  simp only [h, if_true]
  rfl

/-- **C113, finding.** If keys are integers, the attributes may get to the wrong vectors: here the key 0 is at
position 1 and the key 1 at position 0; the attributes of the entry at position 0 are written through the
key 0, that is to position 1. -/
theorem C113_integer_keys :
    let vocab : PyDict Key OldV :=
      [(.int 0, [("index", .int 1), ("count", .int 5)]), (.int 1, [("index", .int 0), ("count", .int 3)])]
    let s : KV Nat := { oldKV with index2word := some [.int 1, .int 0], vocab := some vocab }
    ∃ s' m e, loadKV s = .ok s' ∧ s'.keyToIndex = some m ∧ s'.expandos = some e ∧
      getVecattr m [.int 1, .int 0] e (.int 0) "count" = .ok (.int 3) ∧
      getVecattr m [.int 1, .int 0] e (.int 1) "count" = .ok (.int 0) := by
  exact ⟨_, _, _, rfl, rfl, rfl, rfl, rfl⟩

/-! ### Word2Vec models -/

/-- The default of an attribute of the model that is missing, if there is one. -/
def defaultOf (c : Consts α) (f : Attrs α) (a : String) : Option α :=
  if a = "ns_exponent" then some c.threeQuarters
  else if a = "corpus_count" ∨ a = "corpus_total_words" ∨ a = "max_final_vocab" then some c.none
  else if a = "random" then (f "seed").map c.rng
  else if a = "train_count" then some c.zero
  else if a = "epochs" then f "iter"
  else none

/-- The attributes that earlier versions kept in `vocabulary`. -/
def inVocabulary : List String :=
  ["max_vocab_size", "min_count", "sample", "sorted_vocab", "null_word", "raw_vocab"]

/-- The attributes that earlier versions kept in `trainables`. -/
def inTrainables : List String := ["hashfxn", "layer1_size", "seed", "syn1neg", "syn1"]

theorem vocabNames_eq : vocabNames = inVocabulary := rfl

theorem trainNames_eq : trainNames = inTrainables := rfl

/-- What an attribute of the model is after loading. -/
def after (c : Consts α) (s : Mdl α) (a : String) : Option α :=
  if a = "syn1" ∧ s.trainables.isSome then none
  else if a ∈ inTrainables ∧ (s.trainables.bind (· a)).isSome then s.trainables.bind (· a)
  else if a ∈ inVocabulary ∧ s.vocabulary.isSome then s.vocabulary.bind (· a)
  else if a = "iter" ∧ (s.attrs "epochs").isNone then none
  else if a = "total_train_time" ∧ (s.attrs "train_count").isNone then some c.zero
  else if a = "cum_table" ∧ ((s.attrs "negative").map c.truthy = some true) ∧ s.wvIndex = true then
    some (c.cumTable ((s.attrs "ns_exponent").getD c.threeQuarters))
  else (s.attrs a).or (defaultOf c s.attrs a)

/-- The attributes that must be there. -/
def Complete (s : Mdl α) : Prop :=
  (s.attrs "negative").isSome ∧ ((s.attrs "random").isSome ∨ (s.attrs "seed").isSome) ∧
  ((s.attrs "epochs").isSome ∨ (s.attrs "iter").isSome) ∧
  ∀ v, s.vocabulary = some v → ∀ a ∈ inVocabulary, (v a).isSome

theorem takeAll_ok (src : Attrs α) (as : List String) : ∀ f : Attrs α, (∀ a ∈ as, (src a).isSome) →
    takeAll src as f = .ok (fun x => if x ∈ as then src x else f x) := by
  induction as with
  | nil => intro f _; simp [takeAll]
  | cons a as ih =>
    intro f h
    obtain ⟨v, hv⟩ := Option.isSome_iff_exists.mp (h a (by simp))
    simp only [takeAll, attr, hv]
    show takeAll src as (put f a v) = _
    rw [ih _ (fun x hx => h x (by simp [hx]))]
    congr 1
    funext x
    by_cases hx : x ∈ as
    · simp [hx]
    · by_cases hxa : x = a
      · subst hxa; simp [put, hv, hx]
      · simp [put, hx, hxa]

theorem takeAll_err (src : Attrs α) (as : List String) : ∀ f : Attrs α, (∃ a ∈ as, src a = none) →
    takeAll src as f = .error .attr := by
  induction as with
  | nil => rintro f ⟨a, ha, _⟩; simp at ha
  | cons a as ih =>
    rintro f ⟨x, hx, hn⟩
    cases hv : src a with
    | none => simp only [takeAll, attr, hv]; rfl
    | some v =>
      simp only [takeAll, attr, hv]
      show takeAll src as (put f a v) = _
      refine ih _ ⟨x, ?_, hn⟩
      rcases List.mem_cons.mp hx with rfl | hx
      · rw [hn] at hv; cases hv
      · exact hx

theorem takeSome_eq (src : Attrs α) (as : List String) : ∀ f : Attrs α,
    takeSome src as f = fun x => if x ∈ as ∧ (src x).isSome then src x else f x := by
  induction as with
  | nil => intro f; simp [takeSome]
  | cons a as ih =>
    intro f
    simp only [takeSome]
    rw [ih]
    funext x
    by_cases hx : x ∈ as ∧ (src x).isSome
    · rw [if_pos hx, if_pos ⟨by simp [hx.1], hx.2⟩]
    · rw [if_neg hx]
      cases hv : src a with
      | none =>
        rw [if_neg]
        rintro ⟨h1, h2⟩
        rcases List.mem_cons.mp h1 with rfl | h1
        · simp [hv] at h2
        · exact hx ⟨h1, h2⟩
      | some v =>
        by_cases hxa : x = a
        · subst hxa; simp [put, hv]
        · rw [if_neg]
          · simp [put, hxa]
          · rintro ⟨h1, h2⟩
            rcases List.mem_cons.mp h1 with rfl | h1
            · exact hxa rfl
            · exact hx ⟨h1, h2⟩

theorem put_apply (f : Attrs α) (a x : String) (v : α) : put f a v x = if x = a then some v else f x := by
  simp [put, Function.update_apply]

theorem del_apply (f : Attrs α) (a x : String) : del f a x = if x = a then none else f x := by
  simp [del, Function.update_apply]

theorem dflt_apply (f : Attrs α) (a x : String) (v : α) :
    dflt f a v x = if x = a then some ((f a).getD v) else f x := by
  unfold dflt
  cases h : f a with
  | none => simp [put_apply]
  | some w =>
    simp only [Option.isSome_some, if_true, Option.getD_some]
    by_cases hx : x = a
    · subst hx; simp [h]
    · simp [hx]

theorem cumStep_ok (c : Consts α) (b : Bool) (f : Attrs α) (n x : α) (hn : f "negative" = some n)
    (hx : f "ns_exponent" = some x) : cumStep c b f =
      .ok (fun a => if a = "cum_table" ∧ (c.truthy n && b) = true then some (c.cumTable x) else f a) := by
  simp only [cumStep, attr, hn]
  show (if (c.truthy n && b) = true then _ else _) = _
  by_cases h : (c.truthy n && b) = true
  · simp only [if_pos h, hx]
    show Except.ok (put f "cum_table" (c.cumTable x)) = _
    congr 1
    funext a
    simp [put_apply, h]
  · rw [Bool.not_eq_true] at h
    simp [h]

theorem randomStep_ok (c : Consts α) (f : Attrs α) (h : (f "random").isSome ∨ (f "seed").isSome) :
    randomStep c f = .ok (fun a => if a = "random" then (f "random").or ((f "seed").map c.rng) else f a) := by
  unfold randomStep
  cases hr : f "random" with
  | some r =>
    simp only [Option.isSome_some, if_true, Option.some_or]
    congr 1
    funext a
    by_cases ha : a = "random"
    · subst ha; simp [hr]
    · simp [ha]
  | none =>
    obtain ⟨sd, hs⟩ := Option.isSome_iff_exists.mp (h.resolve_left (by simp [hr]))
    simp only [Option.isSome_none, Bool.false_eq_true, if_false, attr, hs]
    show Except.ok (put f "random" (c.rng sd)) = _
    congr 1
    funext a
    simp [put_apply]

theorem countStep_eq (c : Consts α) (f : Attrs α) : countStep c f = fun a =>
    if a = "train_count" then (f "train_count").or (some c.zero)
    else if a = "total_train_time" ∧ (f "train_count").isNone then some c.zero else f a := by
  unfold countStep
  funext a
  cases hr : f "train_count" with
  | some r =>
    by_cases ha : a = "train_count"
    · subst ha; simp [hr]
    · simp [ha]
  | none =>
    simp only [Option.isSome_none, Bool.false_eq_true, if_false, put_apply, Option.none_or, Option.isNone_none, and_true]
    by_cases ha : a = "train_count"
    · subst ha; simp
    · simp [ha]

theorem epochsStep_ok (f : Attrs α) (h : (f "epochs").isSome ∨ (f "iter").isSome) : epochsStep f =
    .ok (fun a => if a = "epochs" then (f "epochs").or (f "iter")
      else if a = "iter" ∧ (f "epochs").isNone then none else f a) := by
  unfold epochsStep
  cases hr : f "epochs" with
  | some r =>
    simp only [Option.isSome_some, if_true, Option.some_or]
    congr 1
    funext a
    by_cases ha : a = "epochs"
    · subst ha; simp [hr]
    · simp [ha]
  | none =>
    obtain ⟨i, hi⟩ := Option.isSome_iff_exists.mp (h.resolve_left (by simp [hr]))
    simp only [Option.isSome_none, Bool.false_eq_true, if_false, attr, hi]
    show Except.ok (del (put f "epochs" i) "iter") = _
    congr 1
    funext a
    simp only [put_apply, del_apply, Option.none_or, Option.isNone_none, and_true]
    by_cases ha : a = "iter"
    · subst ha; simp
    · simp [ha]

theorem dropSyn1_eq (f : Attrs α) : dropSyn1 f = fun a => if a = "syn1" then none else f a := by
  unfold dropSyn1
  funext a
  cases hr : f "syn1" with
  | some r => simp [del_apply]
  | none =>
    by_cases ha : a = "syn1"
    · subst ha; simp [hr]
    · simp [ha]

theorem vocabStep_ok (v : Option (Attrs α)) (f : Attrs α)
    (h : ∀ w, v = some w → ∀ a ∈ inVocabulary, (w a).isSome) :
    vocabStep v f = .ok (fun x => if x ∈ inVocabulary ∧ v.isSome then v.bind (· x) else f x) := by
  cases v with
  | none => simp [vocabStep]
  | some w => simp [vocabStep, vocabNames_eq, takeAll_ok w inVocabulary f (h w rfl)]

theorem trainStep_eq (t : Option (Attrs α)) (f : Attrs α) :
    trainStep t f = fun x => if x = "syn1" ∧ t.isSome then none
      else if x ∈ inTrainables ∧ (t.bind (· x)).isSome then t.bind (· x) else f x := by
  cases t with
  | none => simp [trainStep]
  | some w => simp [trainStep, trainNames_eq, dropSyn1_eq, takeSome_eq]

theorem load_ok (c : Consts α) (s : Mdl α) (h : Complete s) :
    load c s = .ok ⟨after c s, none, none, s.wvIndex, s.wvVectors, s.wvLockf || s.wvVectors⟩ := by
  obtain ⟨hn, hr, he, hv⟩ := h
  obtain ⟨n, hn⟩ := Option.isSome_iff_exists.mp hn
  unfold load
  simp only
  rw [cumStep_ok c s.wvIndex (dflt s.attrs "ns_exponent" c.threeQuarters) n
    ((s.attrs "ns_exponent").getD c.threeQuarters) (by simp [dflt_apply, hn]) (by simp [dflt_apply])]
  simp only [bind, Except.bind]
  rw [randomStep_ok _ _ (by simpa [dflt_apply] using hr)]
  simp only [countStep_eq]
  rw [epochsStep_ok _ (by simpa [dflt_apply] using he)]
  simp only
  rw [vocabStep_ok _ _ hv]
  simp only
  rw [trainStep_eq]
  congr 2
  funext a
  unfold after
  congr 1
  congr 1
  congr 1
  simp only [dflt_apply, hn]
  by_cases h1 : a = "max_final_vocab"
  · subst h1
    cases hx : s.attrs "max_final_vocab" <;> simp [defaultOf, hx]
  by_cases h2 : a = "epochs"
  · subst h2
    cases hx : s.attrs "epochs" <;> simp [defaultOf, hx]
  by_cases h3 : a = "iter"
  · subst h3
    cases hx : s.attrs "epochs" <;> simp [defaultOf, hx]
  by_cases h4 : a = "train_count"
  · subst h4
    cases hx : s.attrs "train_count" <;> simp [defaultOf, hx]
  by_cases h5 : a = "total_train_time"
  · subst h5
    cases hx : s.attrs "train_count" <;> simp [defaultOf, hx]
  by_cases h6 : a = "random"
  · subst h6
    simp [defaultOf]
  by_cases h7 : a = "corpus_total_words"
  · subst h7
    cases hx : s.attrs "corpus_total_words" <;> simp [defaultOf, hx]
  by_cases h8 : a = "corpus_count"
  · subst h8
    cases hx : s.attrs "corpus_count" <;> simp [defaultOf, hx]
  by_cases h9 : a = "cum_table"
  · subst h9
    simp [defaultOf]
  by_cases h10 : a = "ns_exponent"
  · subst h10
    cases hx : s.attrs "ns_exponent" <;> simp [defaultOf, hx]
  simp [defaultOf, h1, h2, h3, h4, h5, h6, h7, h8, h9, h10]

theorem load_err (c : Consts α) (s : Mdl α) (h : ¬ Complete s) : load c s = .error .attr := by
  unfold load
  simp only
  cases hn : s.attrs "negative" with
  | none =>
    simp only [cumStep, attr, show dflt s.attrs "ns_exponent" c.threeQuarters "negative" = none by
      simp [dflt_apply, hn]]
    rfl
  | some n =>
  rw [cumStep_ok c s.wvIndex (dflt s.attrs "ns_exponent" c.threeQuarters) n
    ((s.attrs "ns_exponent").getD c.threeQuarters) (by simp [dflt_apply, hn]) (by simp [dflt_apply])]
  simp only [bind, Except.bind]
  by_cases hr : (s.attrs "random").isSome ∨ (s.attrs "seed").isSome
  swap
  · push Not at hr
    simp only [Bool.not_eq_true, Option.isSome_eq_false_iff, Option.isNone_iff_eq_none] at hr
    simp [randomStep, dflt_apply, hr.1, hr.2, attr, bind, Except.bind]
  rw [randomStep_ok _ _ (by simpa [dflt_apply] using hr)]
  simp only [countStep_eq]
  by_cases he : (s.attrs "epochs").isSome ∨ (s.attrs "iter").isSome
  swap
  · push Not at he
    simp only [Bool.not_eq_true, Option.isSome_eq_false_iff, Option.isNone_iff_eq_none] at he
    simp [epochsStep, dflt_apply, he.1, he.2, attr, bind, Except.bind]
  rw [epochsStep_ok _ (by simpa [dflt_apply] using he)]
  simp only
  obtain ⟨v, hv, a, ha, hva⟩ : ∃ v, s.vocabulary = some v ∧ ∃ a ∈ inVocabulary, v a = none := by
    by_contra hc
    push Not at hc
    exact h ⟨by simp [hn], hr, he, fun v hv a ha => Option.isSome_iff_ne_none.mpr (hc v hv a ha)⟩
  simp only [vocabStep, vocabNames_eq, hv]
  rw [takeAll_err _ _ _ ⟨a, ha, hva⟩]

/-- **C113.** `load` of a model succeeds exactly when the attributes that are needed are there; otherwise it is
an `AttributeError`. -/
theorem C113_load_iff (c : Consts α) (s : Mdl α) :
    ((∃ s', load c s = .ok s') ↔ Complete s) ∧ (¬ Complete s → load c s = .error .attr) := by
  refine ⟨⟨?_, fun h => ⟨_, load_ok c s h⟩⟩, load_err c s⟩
  rintro ⟨s', hs⟩
  by_contra h
  rw [load_err c s h] at hs
  cases hs

/-- **C113.** After loading, every attribute of the model is as in the table `after`; the old helper objects are
gone, and there are lock factors if there are vectors. -/
theorem C113_load_attrs (c : Consts α) (s s' : Mdl α) (h : load c s = .ok s') :
    (∀ a, s'.attrs a = after c s a) ∧ s'.vocabulary = none ∧ s'.trainables = none ∧
      (s'.wvLockf = (s.wvLockf || s.wvVectors)) := by
  have hc := ((C113_load_iff c s).1).mp ⟨s', h⟩
  rw [load_ok c s hc] at h
  cases h
  exact ⟨fun _ => rfl, rfl, rfl, rfl⟩

/-- **C113, finding.** Loading a model with `trainables`, as earlier versions wrote them, loses the weights of
hierarchical softmax, wherever they were. -/
theorem C113_syn1_lost (c : Consts α) (s s' : Mdl α) (h : load c s = .ok s') (ht : s.trainables ≠ none) :
    s'.attrs "syn1" = none := by
  rw [(C113_load_attrs c s s' h).1]
  simp [after, Option.isSome_iff_ne_none.mpr ht]

/-- **C113, finding.** An exponent of negative sampling that is stored in `vocabulary` is not taken over: the
exponent is 0.75, and so is the table. -/
theorem C113_exponent_lost (c : Consts α) (s s' : Mdl α) (h : load c s = .ok s') (hx : s.attrs "ns_exponent" = none) :
    s'.attrs "ns_exponent" = some c.threeQuarters ∧
    (∀ n, s.attrs "negative" = some n → c.truthy n = true → s.wvIndex = true →
      s'.attrs "cum_table" = some (c.cumTable c.threeQuarters)) := by
  constructor
  · rw [(C113_load_attrs c s s' h).1]
    simp [after, hx, defaultOf, inTrainables, inVocabulary]
  · intro n hn ht hw
    rw [(C113_load_attrs c s s' h).1]
    simp [after, hx, hn, ht, hw, inTrainables, inVocabulary]

/-- **C113.** Saving and loading a model of the current version gives the model back, provided its table of
negative sampling is the one of its exponent (and of its counts) if it uses negative sampling, and is `None`
otherwise. -/
theorem C113_save_load (c : Consts α) (s : Mdl α)
    (hv : s.vocabulary = none) (ht : s.trainables = none) (hl : s.wvVectors = true → s.wvLockf = true)
    (hall : ∀ a ∈ ["negative", "random", "epochs", "ns_exponent", "corpus_count", "corpus_total_words",
      "train_count", "max_final_vocab"], s.attrs a ≠ none)
    (hc : ∀ n x, s.attrs "negative" = some n → s.attrs "ns_exponent" = some x →
      s.attrs "cum_table" = some (if c.truthy n = true ∧ s.wvIndex = true then c.cumTable x else c.none)) :
    load c (saved c s) = .ok s := by
  simp only [List.mem_cons, List.not_mem_nil, or_false, forall_eq_or_imp, forall_eq] at hall
  obtain ⟨h1, h2, h3, h4, h5, h6, h7, h8⟩ := hall
  obtain ⟨n, hn⟩ := Option.ne_none_iff_exists'.mp h1
  obtain ⟨x, hx⟩ := Option.ne_none_iff_exists'.mp h4
  have hct := hc n x hn hx
  rw [load_ok]
  · obtain ⟨f, vo, tr, wi, wv, wl⟩ := s
    simp only at hv ht hl h1 h2 h3 h4 h5 h6 h7 h8 hn hx hct
    subst hv; subst ht
    simp only [saved]
    congr 1
    rw [Mdl.mk.injEq]
    refine ⟨?_, rfl, rfl, rfl, rfl, ?_⟩
    · funext a
      simp only [after, put_apply, Option.isSome_none, Bool.false_eq_true, and_false, if_false, Option.bind_none]
      by_cases ha : a = "cum_table"
      · subst ha
        rw [hct]
        simp [hn, hx, defaultOf]
        split <;> rfl
      · simp only [ha, false_and, if_false]
        simp only [show ("epochs" : String) ≠ "cum_table" by decide, show ("train_count" : String) ≠ "cum_table" by decide,
          if_false, Option.isNone_iff_eq_none, h3, h7, and_false]
        cases hfa : f a with
        | some v => rfl
        | none =>
          have : defaultOf c (put f "cum_table" c.none) a = none := by
            unfold defaultOf
            rw [if_neg (by rintro rfl; exact h4 hfa), if_neg (by
                rintro (rfl | rfl | rfl)
                · exact h5 hfa
                · exact h6 hfa
                · exact h8 hfa),
              if_neg (by rintro rfl; exact h2 hfa), if_neg (by rintro rfl; exact h7 hfa),
              if_neg (by rintro rfl; exact h3 hfa)]
          simpa using this
    · cases wl <;> cases wv <;> simp_all
  · refine ⟨?_, .inl ?_, .inl ?_, ?_⟩
    · simp [saved, put_apply, hn]
    · simpa [saved, put_apply, Option.isSome_iff_ne_none] using h2
    · simpa [saved, put_apply, Option.isSome_iff_ne_none] using h3
    · intro v hv'
      simp [saved, hv] at hv'

/-- Values for the examples: numbers, 0 is `None`. -/
def natConsts : Consts Nat where
  none := 0
  zero := 0
  threeQuarters := 75
  rng := fun n => n + 1000
  cumTable := fun n => n + 500
  truthy := fun n => n != 0

/-- A model of an earlier version with hierarchical softmax, and an exponent of its own in `vocabulary`. -/
def oldModel : Mdl Nat where
  attrs := fun a => if a = "negative" then some 5 else if a = "iter" then some 7 else if a = "seed" then some 1 else none
  vocabulary := some fun a => if a = "ns_exponent" then some 50 else if a = "min_count" then some 3 else some 2
  trainables := some fun a => if a = "syn1" then some 11 else if a = "syn1neg" then some 12 else none
  wvIndex := true
  wvVectors := true
  wvLockf := false

example : Complete oldModel := ⟨rfl, .inr rfl, .inr rfl, by
  rintro v ⟨⟩ a _
  simp only
  split
  · rfl
  · split <;> rfl⟩

example : (load natConsts oldModel).map (fun s => (s.attrs "epochs", s.attrs "iter", s.attrs "min_count",
    s.attrs "syn1neg", s.attrs "syn1", s.attrs "ns_exponent", s.attrs "cum_table")) =
    .ok (some 7, none, some 3, some 12, none, some 75, some 575) := by
  rw [load_ok natConsts oldModel ⟨rfl, .inr rfl, .inr rfl, by
    rintro v ⟨⟩ a _
    simp only
    split
    · rfl
    · split <;> rfl⟩]
  rfl

/-- A model of the current version. -/
example : load natConsts (saved natConsts ⟨fun a => if a = "cum_table" then some 560 else if a = "iter" then none
    else if a = "ns_exponent" then some 60 else some 9, none, none, true, true, true⟩) =
    .ok ⟨fun a => if a = "cum_table" then some 560 else if a = "iter" then none
      else if a = "ns_exponent" then some 60 else some 9, none, none, true, true, true⟩ :=
  C113_save_load _ _ rfl rfl (fun _ => rfl) (by simp) (by
    intro n x hn hx
    simp at hn hx
    subst hn; subst hx
    rfl)

/-! ### fastText models -/

/-- **C113.** After loading a fastText model, `bucket` is an attribute of its word vectors only: that of the
model if it had one. -/
theorem C113_bucket (f : Attrs α) (b : Option α) :
    (moveBucket f b).1 "bucket" = none ∧ (moveBucket f b).2 = (f "bucket").or b ∧
    ∀ a, a ≠ "bucket" → (moveBucket f b).1 a = f a := by
  unfold moveBucket
  cases h : f "bucket" with
  | none => exact ⟨h, rfl, fun _ _ => rfl⟩
  | some v => exact ⟨by simp [del_apply], rfl, fun a ha => by simp [del_apply, ha]⟩

/-- **C113.** Word vectors of fastText are refused with a `TypeError` exactly when they are not known to use the
standard hash function; otherwise they are taken if each of the two arrays or its lock factors are there, and
then both lock factors have at most one dimension, and are unchanged if they had. -/
theorem C113_fasttext (s : FtKV) :
    (loadFt s = .error .type ↔ s.compatibleHash ≠ some true) ∧
    (∀ s', loadFt s = .ok s' ↔ s.compatibleHash = some true ∧
      ∃ a b, s' = { s with vocabLockf := some a, ngramsLockf := some b } ∧
        (s.vocabLockf = none → s.vocab = true ∧ a = 1) ∧ (s.ngramsLockf = none → s.ngrams = true ∧ b = 1) ∧
        (∀ d, s.vocabLockf = some d → a = min d 1) ∧ (∀ d, s.ngramsLockf = some d → b = min d 1)) := by
  obtain ⟨ch, v, g, vl, gl⟩ := s
  have hfix : ∀ (arr : Bool) (l : Option Nat), (fixLockf arr l = .error .attr ∧ l = none ∧ arr = false) ∨
      ∃ d, fixLockf arr l = .ok d ∧ (l = none → arr = true ∧ d = 1) ∧ ∀ x, l = some x → d = min x 1 := by
    intro arr l
    cases l with
    | none => cases arr <;> simp [fixLockf]
    | some d =>
      refine .inr ⟨_, rfl, by simp, ?_⟩
      rintro x ⟨⟩
      split <;> omega
  unfold loadFt
  simp only
  by_cases hc : ch = some true
  · subst hc
    simp only [ne_eq, not_true_eq_false, if_false, iff_false, true_and]
    rcases hfix v vl with ⟨h1, h1', h1''⟩ | ⟨a, h1, ha, ha'⟩
    · rw [h1]
      refine ⟨by simp [bind, Except.bind], ?_⟩
      intro s'
      simp only [bind, Except.bind, reduceCtorEq, false_iff]
      rintro ⟨a, b, _, hx, _⟩
      simp [hx h1'] at h1''
    · rw [h1]
      rcases hfix g gl with ⟨h2, h2', h2''⟩ | ⟨b, h2, hb, hb'⟩
      · rw [h2]
        refine ⟨by simp [bind, Except.bind], ?_⟩
        intro s'
        simp only [bind, Except.bind, reduceCtorEq, false_iff]
        rintro ⟨a, b, _, _, hx, _⟩
        simp [hx h2'] at h2''
      · rw [h2]
        refine ⟨by simp [bind, Except.bind], ?_⟩
        intro s'
        simp only [bind, Except.bind, Except.ok.injEq]
        constructor
        · rintro rfl
          exact ⟨a, b, rfl, ha, hb, ha', hb'⟩
        · rintro ⟨a', b', rfl, k1, k2, k3, k4⟩
          have e1 : a = a' := by
            cases vl with
            | none => rw [(ha rfl).2, (k1 rfl).2]
            | some d => rw [ha' d rfl, k3 d rfl]
          have e2 : b = b' := by
            cases gl with
            | none => rw [(hb rfl).2, (k2 rfl).2]
            | some d => rw [hb' d rfl, k4 d rfl]
          rw [e1, e2]
  · simp [hc]

end Verif.Upgrade
