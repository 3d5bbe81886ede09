import Verif.FastText.BinProps

/-!
# C152: a fastText binary file that was cut short
-/

namespace Verif.FastText.Bin
open Verif

/-! ### The word loop -/

/-- `s` rounds of the loop over the characters of a word (_fasttext_bin.py:209-213), with the bytes left in the file and
the word so far; at the end of the file `fin.read(1)` is `b''`, which is not the marker, and is "written". `none`: still
running after `s` rounds. -/
def wordLoop : Nat → List Nat → List Nat → Option (List Nat × List Nat)
  | 0, _, _ => none
  | s + 1, [], w => wordLoop s [] w
  | s + 1, b :: f, w => if b = 0 then some (w, f) else wordLoop s f (w ++ [b])

theorem wordLoop_nil : ∀ (s : Nat) (w : List Nat), wordLoop s [] w = none := by
  intro s
  induction s with
  | zero => intro w; rfl
  | succ s ih => intro w; exact ih w

/-- **C152** Reading a word from bytes that contain the marker ends; from bytes that do not it runs for ever. -/
theorem C152_word_loop (f : List Nat) :
    (∀ w g, rdWord f = some (w, g) → f = w ++ 0 :: g ∧ 0 ∉ w ∧ ∃ s, wordLoop s f [] = some (w, g)) ∧
    (rdWord f = none ↔ 0 ∉ f) ∧ (0 ∉ f → ∀ s, wordLoop s f [] = none) := by
  have h : ∀ (f acc : List Nat), (∀ w g, rdWord f = some (w, g) → f = w ++ 0 :: g ∧ 0 ∉ w ∧ ∃ s, wordLoop s f acc = some (acc ++ w, g)) ∧
      (rdWord f = none ↔ 0 ∉ f) ∧ (0 ∉ f → ∀ s, wordLoop s f acc = none) := by
    intro f
    induction f with
    | nil =>
      intro acc
      refine ⟨?_, ?_, fun _ s => wordLoop_nil s acc⟩
      · intro w g h
        cases h
      · exact ⟨fun _ => by simp, fun _ => rfl⟩
    | cons b f ih =>
      intro acc
      by_cases hb : b = 0
      · subst hb
        refine ⟨?_, by simp [rdWord], fun h => absurd (List.mem_cons_self ..) h⟩
        intro w g h
        simp only [rdWord, if_true, Option.some.injEq, Prod.mk.injEq] at h
        obtain ⟨rfl, rfl⟩ := h
        exact ⟨rfl, by simp, 1, by simp [wordLoop]⟩
      · obtain ⟨h1, h2, h3⟩ := ih (acc ++ [b])
        refine ⟨?_, ?_, ?_⟩
        · intro w g h
          simp only [rdWord, if_neg hb, Option.map_eq_some_iff] at h
          obtain ⟨⟨w', g'⟩, e1, e2⟩ := h
          cases e2
          obtain ⟨i1, i2, s, i3⟩ := h1 w' g' e1
          refine ⟨by rw [i1]; rfl, ?_, s + 1, ?_⟩
          · intro hm
            rcases List.mem_cons.1 hm with e | e
            · exact hb e.symm
            · exact i2 e
          · simp only [wordLoop, if_neg hb, i3, List.append_assoc, List.cons_append, List.nil_append]
        · simp only [rdWord, if_neg hb, Option.map_eq_none_iff, h2, List.mem_cons, not_or]
          exact ⟨fun h => ⟨fun e => hb e.symm, h⟩, fun h => h.2⟩
        · intro h s
          cases s with
          | zero => rfl
          | succ s =>
            simp only [wordLoop, if_neg hb]
            exact h3 (fun hm => h (List.mem_cons_of_mem _ hm)) s
  have := h f []
  simpa using this

/-! ### Readers that need exactly the bytes they take -/

/-- a reader that takes the bytes `used`, whatever follows, and fails on any beginning of them -/
def Exact {α : Type} (r : Rd α) : Prop :=
  ∀ f a rest, r f = some (a, rest) → ∃ used, f = used ++ rest ∧ (∀ g, r (used ++ g) = some (a, g)) ∧
    ∀ t, t < used.length → r (used.take t) = none

theorem exact_bind {α β : Type} {r : Rd α} {k : α → Rd β} (hr : Exact r) (hk : ∀ a, Exact (k a)) :
    Exact (fun f => (r f).bind fun p => k p.1 p.2) := by
  intro f b rest h
  rw [Option.bind_eq_some_iff] at h
  obtain ⟨⟨a, f1⟩, h1, h2⟩ := h
  obtain ⟨u1, e1, g1, t1⟩ := hr f a f1 h1
  obtain ⟨u2, e2, g2, t2⟩ := hk a f1 b rest h2
  refine ⟨u1 ++ u2, by rw [e1, e2, List.append_assoc], ?_, ?_⟩
  · intro g
    simp only [List.append_assoc, g1, Option.bind_some, g2]
  · intro t ht
    rw [List.length_append] at ht
    by_cases hlt : t < u1.length
    · rw [List.take_append_of_le_length (by omega)]
      simp only [t1 t hlt, Option.bind_none]
    · obtain ⟨s, rfl⟩ : ∃ s, t = u1.length + s := ⟨t - u1.length, by omega⟩
      rw [List.take_length_add_append]
      simp only [g1, Option.bind_some]
      exact t2 s (by omega)

theorem exact_pure {α : Type} (a : α) : Exact (fun f => some (a, f)) := by
  intro f b rest h
  cases h
  exact ⟨[], rfl, fun g => rfl, fun t ht => by simp at ht⟩

theorem exact_none {α : Type} : Exact (fun _ => none : Rd α) := by
  intro f b rest h
  cases h

theorem exact_ite {α : Type} (c : Prop) [Decidable c] {r s : Rd α} (hr : Exact r) (hs : Exact s) :
    Exact (fun f => if c then r f else s f) := by
  by_cases h : c
  · simpa only [if_pos h] using hr
  · simpa only [if_neg h] using hs

theorem exact_take (n : Nat) : Exact (take n) := by
  intro f a rest h
  unfold take at h
  split at h
  · rename_i hn
    cases h
    refine ⟨f.take n, (List.take_append_drop n f).symm, ?_, ?_⟩
    · intro g
      unfold take
      have hl : (f.take n).length = n := by rw [List.length_take]; omega
      rw [if_pos (by rw [List.length_append, hl]; omega), List.take_left' hl, List.drop_left' hl]
    · intro t ht
      unfold take
      rw [List.length_take] at ht
      rw [if_neg]
      rw [List.length_take, List.length_take]; omega
  · cases h

theorem exact_rdInt (k : Nat) : Exact (rdInt k) := by
  have := exact_bind (exact_take k) (fun a => exact_pure (unpackInt k a))
  have e : rdInt k = fun f => (take k f).bind fun p => some (unpackInt k p.1, p.2) := by
    funext f; unfold rdInt; cases take k f <;> rfl
  rw [e]; exact this

theorem exact_rdBits (k : Nat) : Exact (rdBits k) := by
  have := exact_bind (exact_take k) (fun a => exact_pure (leVal a))
  have e : rdBits k = fun f => (take k f).bind fun p => some (leVal p.1, p.2) := by
    funext f; unfold rdBits; cases take k f <;> rfl
  rw [e]; exact this

theorem exact_rdMany {α : Type} {r : Rd α} (hr : Exact r) : ∀ n, Exact (rdMany r n) := by
  intro n
  induction n with
  | zero => exact exact_pure []
  | succ n ih => exact exact_bind hr (fun x => exact_bind ih (fun xs => exact_pure (x :: xs)))

theorem exact_rdWord : Exact rdWord := by
  intro f w g h
  obtain ⟨e, h0, _⟩ := (C152_word_loop f).1 w g h
  refine ⟨w ++ [0], by rw [e]; simp, ?_, ?_⟩
  · intro g
    rw [List.append_assoc]
    exact rdWord_append w g h0
  · intro t ht
    rw [(C152_word_loop _).2.1]
    rw [List.length_append, List.length_singleton] at ht
    rw [List.take_append_of_le_length (by omega)]
    exact fun hm => h0 (List.mem_of_mem_take hm)

theorem exact_rdEntry {W : Type} (dec : List Nat → W) : Exact (rdEntry dec) :=
  exact_bind exact_rdWord fun w => exact_bind (exact_rdInt 8) fun c => exact_bind (exact_take 1) fun _ => exact_pure (dec w, c)

theorem exact_loadVocab {W : Type} [DecidableEq W] (dec : List Nat → W) (newFormat : Bool) :
    Exact (loadVocab dec newFormat) := by
  cases newFormat with
  | false =>
    exact exact_bind (exact_rdInt 4) fun vocabSize => exact_bind (exact_rdInt 4) fun nwords => exact_bind (exact_rdInt 4) fun nlabels =>
      exact_ite (nlabels > 0) exact_none <| exact_bind (exact_rdInt 8) fun ntokens =>
          exact_bind (exact_rdMany (exact_rdEntry dec) vocabSize.toNat) fun es =>
            exact_bind (exact_rdMany (exact_take 8) 0) fun _ =>
              exact_pure (⟨PyDict.ofPairs es, vocabSize, nwords, ntokens⟩ : Vocab W)
  | true =>
    exact exact_bind (exact_rdInt 4) fun vocabSize => exact_bind (exact_rdInt 4) fun nwords => exact_bind (exact_rdInt 4) fun nlabels =>
      exact_ite (nlabels > 0) exact_none <| exact_bind (exact_rdInt 8) fun ntokens =>
        exact_bind (exact_rdInt 8) fun prune =>
          exact_bind (exact_rdMany (exact_rdEntry dec) vocabSize.toNat) fun es =>
            exact_bind (exact_rdMany (exact_take 8) prune.toNat) fun _ =>
              exact_pure (⟨PyDict.ofPairs es, vocabSize, nwords, ntokens⟩ : Vocab W)

theorem exact_loadMatrix (newFormat : Bool) : Exact (loadMatrix newFormat) := by
  cases newFormat with
  | false =>
    exact exact_bind (exact_rdInt 8) fun n => exact_bind (exact_rdInt 8) fun dim => exact_ite (n < 0 ∨ dim < 0) exact_none <|
      exact_bind (exact_rdMany (exact_rdBits 4) (n * dim).toNat) fun vals => exact_pure (reshape dim.toNat n.toNat vals)
  | true =>
    exact exact_bind (exact_take 1) fun _ => exact_bind (exact_rdInt 8) fun n =>
      exact_bind (exact_rdInt 8) fun dim => exact_ite (n < 0 ∨ dim < 0) exact_none <|
        exact_bind (exact_rdMany (exact_rdBits 4) (n * dim).toNat) fun vals => exact_pure (reshape dim.toNat n.toNat vals)

theorem exact_headerTail (dim ws : Int) : Exact (rdHeaderTail dim ws) :=
  exact_bind (exact_rdInt 4) fun epoch => exact_bind (exact_rdInt 4) fun minCount => exact_bind (exact_rdInt 4) fun neg =>
    exact_bind (exact_rdInt 4) fun wordNgrams => exact_bind (exact_rdInt 4) fun loss => exact_bind (exact_rdInt 4) fun model =>
      exact_bind (exact_rdInt 4) fun bucket => exact_bind (exact_rdInt 4) fun minn => exact_bind (exact_rdInt 4) fun maxn =>
        exact_bind (exact_rdInt 4) fun lr => exact_bind (exact_rdBits 8) fun t =>
          exact_pure (⟨dim, ws, epoch, minCount, neg, wordNgrams, loss, model, bucket, minn, maxn, lr, t⟩ : Header)

/-- what comes before the vocabulary: is the format new, and the header -/
def rdStart : Rd (Bool × Header) := fun f =>
  (rdInt 4 f).bind fun p => (rdInt 4 p.2).bind fun q =>
    (if p.1 = magic then rdInt 4 q.2 else some (p.1, q.2)).bind fun d =>
      (if p.1 = magic then rdInt 4 d.2 else some (q.1, d.2)).bind fun w =>
        (rdHeaderTail d.1 w.1 w.2).bind fun h => some ((decide (p.1 = magic), h.1), h.2)

/-- everything up to the input matrix -/
def rdVectors {W : Type} [DecidableEq W] (dec : List Nat → W) : Rd (Bool × Header × Vocab W × Mat) := fun f =>
  (rdStart f).bind fun s => (loadVocab dec s.1.1 s.2).bind fun v => (loadMatrix s.1.1 v.2).bind fun m =>
    some ((s.1.1, s.1.2, v.1, m.1), m.2)

theorem exact_rdStart : Exact rdStart :=
  exact_bind (exact_rdInt 4) fun mg => exact_bind (exact_rdInt 4) fun version =>
    exact_bind (exact_ite (mg = magic) (exact_rdInt 4) (exact_pure mg)) fun dim =>
      exact_bind (exact_ite (mg = magic) (exact_rdInt 4) (exact_pure version)) fun ws =>
        exact_bind (exact_headerTail dim ws) fun h => exact_pure (decide (mg = magic), h)

theorem exact_rdVectors {W : Type} [DecidableEq W] (dec : List Nat → W) : Exact (rdVectors (W := W) dec) :=
  exact_bind exact_rdStart fun s => exact_bind (exact_loadVocab dec s.1) fun v => exact_bind (exact_loadMatrix s.1) fun m =>
    exact_pure (s.1, s.2, v, m)

theorem load_eq {W : Type} [DecidableEq W] (dec : List Nat → W) (full : Bool) (f : List Nat) :
    load dec full f = (rdVectors dec f).bind fun p =>
      if full then (loadMatrix p.1.1 p.2).bind fun m => if m.2 = [] then some ⟨p.1.2.1, p.1.2.2.1, p.1.2.2.2, some m.1⟩ else none
      else some ⟨p.1.2.1, p.1.2.2.1, p.1.2.2.2, none⟩ := by
  unfold load rdVectors rdStart
  simp only [Option.bind_eq_bind, Option.bind_assoc, decide_eq_true_eq, Option.bind_some]
  cases rdInt 4 f with
  | none => rfl
  | some p =>
    by_cases h : p.1 = magic
    · simp only [Option.bind_some, if_pos h]
    · simp only [Option.bind_some, if_neg h]

/-- **C152** A file that loads as a full model does not load, as a full model, when it is cut anywhere. -/
theorem C152_cut {W : Type} [DecidableEq W] (dec : List Nat → W) (f : List Nat) (l : Loaded W)
    (h : load dec true f = some l) (t : Nat) (ht : t < f.length) : load dec true (f.take t) = none := by
  have hx : Exact (fun f => (rdVectors (W := W) dec f).bind fun p => (loadMatrix p.1.1 p.2).bind fun m =>
      some ((p.1, m.1), m.2)) :=
    exact_bind (exact_rdVectors dec) fun p => exact_bind (exact_loadMatrix p.1) fun m => exact_pure (p, m)
  rw [load_eq] at h ⊢
  simp only [if_true, Option.bind_eq_some_iff] at h
  obtain ⟨p, hp, m, hm, hl⟩ := h
  split at hl
  · rename_i hnil
    obtain ⟨used, e, _, hcut⟩ := hx f (p.1, m.1) [] (by simp only [hp, hm, Option.bind_some, hnil])
    rw [List.append_nil] at e
    subst e
    have := hcut t ht
    simp only [Option.bind_eq_none_iff] at this
    simp only [if_true, Option.bind_eq_none_iff]
    intro p' hp' m' hm'
    have := this p' hp' m' hm'
    cases this
  · cases hl

/-- **C152** For the vectors alone a certain number of bytes is needed and enough: cut before, the file does not load;
cut after, it loads with the same result. -/
theorem C152_cut_vectors {W : Type} [DecidableEq W] (dec : List Nat → W) (f : List Nat) (l : Loaded W)
    (h : load dec false f = some l) :
    ∃ n, n ≤ f.length ∧ ∀ t, (t < n → load dec false (f.take t) = none) ∧ (n ≤ t → load dec false (f.take t) = some l) := by
  simp only [load_eq, Bool.false_eq_true, if_false] at h ⊢
  rw [Option.bind_eq_some_iff] at h
  obtain ⟨⟨p, rest⟩, hp, hl⟩ := h
  obtain ⟨used, rfl, hg, hcut⟩ := exact_rdVectors dec f p rest hp
  refine ⟨used.length, by simp, fun t => ⟨fun ht => ?_, fun ht => ?_⟩⟩
  · rw [List.take_append_of_le_length (by omega), hcut t ht]
    rfl
  · obtain ⟨s, rfl⟩ : ∃ s, t = used.length + s := ⟨t - used.length, by omega⟩
    rw [List.take_length_add_append, hg]
    exact hl

/-! ### Where loading never ends -/

/-- what is read before the words: the size of the vocabulary (_fasttext_bin.py:335-345, 192-203) -/
def rdBeforeWords : Rd Int := fun f =>
  (rdStart f).bind fun s => (rdInt 4 s.2).bind fun v => (rdInt 4 v.2).bind fun nw => (rdInt 4 nw.2).bind fun nl =>
    if nl.1 > 0 then none else (rdInt 8 nl.2).bind fun nt =>
      (if s.1.1 = true then rdInt 8 nt.2 else some (0, nt.2)).bind fun pr => some (v.1, pr.2)

/-- loading reaches a word whose marker is not in the file: the loop of `C152_word_loop` runs for ever -/
def Hangs {W : Type} (dec : List Nat → W) (f : List Nat) : Prop :=
  ∃ n f1 i es f2, rdBeforeWords f = some (n, f1) ∧ i < n.toNat ∧ rdMany (rdEntry dec) i f1 = some (es, f2) ∧ 0 ∉ f2

theorem exact_rdBeforeWords : Exact rdBeforeWords :=
  exact_bind exact_rdStart fun s => exact_bind (exact_rdInt 4) fun v => exact_bind (exact_rdInt 4) fun _ =>
    exact_bind (exact_rdInt 4) fun nl => exact_ite (nl > 0) exact_none <| exact_bind (exact_rdInt 8) fun _ =>
      exact_bind (exact_ite (s.1 = true) (exact_rdInt 8) (exact_pure 0)) fun _ => exact_pure v

theorem rdMany_stuck {α : Type} (r : Rd α) : ∀ (n i : Nat) (f : List Nat) (es : List α) (g : List Nat), i < n →
    rdMany r i f = some (es, g) → r g = none → rdMany r n f = none := by
  intro n i
  induction i generalizing n with
  | zero =>
    intro f es g hn h hr
    cases h
    cases n with
    | zero => omega
    | succ n => simp only [rdMany, hr, Option.bind_eq_bind, Option.bind_none]
  | succ i ih =>
    intro f es g hn h hr
    cases n with
    | zero => omega
    | succ n =>
      simp only [rdMany, Option.bind_eq_bind, Option.bind_eq_some_iff] at h ⊢
      obtain ⟨⟨x, f1⟩, h1, ⟨xs, f2⟩, h2, h3⟩ := h
      cases h3
      rw [h1, Option.bind_some]
      simp only [ih n f1 xs f2 (by omega) h2 hr, Option.bind_none]

/-- **C152** While a load hangs nothing is returned. -/
theorem C152_hang_no_result {W : Type} [DecidableEq W] (dec : List Nat → W) (full : Bool) (f : List Nat) (h : Hangs dec f) :
    load dec full f = none := by
  obtain ⟨n, f1, i, es, f2, h1, h2, h3, h4⟩ := h
  have hstuck : rdEntry dec f2 = none := by
    unfold rdEntry
    rw [(C152_word_loop f2).2.1.2 h4]
    rfl
  have hmany := rdMany_stuck (rdEntry dec) n.toNat i f1 es f2 h2 h3 hstuck
  unfold rdBeforeWords at h1
  simp only [Option.bind_eq_some_iff] at h1
  obtain ⟨⟨⟨nf, hd⟩, g0⟩, e0, ⟨v, g1⟩, e1, ⟨nw, g2⟩, e2, ⟨nl, g3⟩, e3, h1⟩ := h1
  split at h1
  · cases h1
  · rename_i hnl
    simp only [Option.bind_eq_some_iff] at h1
    obtain ⟨⟨nt, g4⟩, e4, ⟨pr, g5⟩, e5, h1⟩ := h1
    cases h1
    have hv : loadVocab dec nf g0 = none := by
      unfold loadVocab
      cases nf
      · simp only [Bool.false_eq_true, if_false, Option.some.injEq, Prod.mk.injEq] at e5
        obtain ⟨_, rfl⟩ := e5
        simp only [e1, e2, e3, e4, Option.bind_eq_bind, Option.bind_some, if_neg hnl, Bool.false_eq_true, if_false, hmany, Option.bind_none]
      · simp only [if_true] at e5
        simp only [e1, e2, e3, e4, e5, Option.bind_eq_bind, Option.bind_some, if_neg hnl, if_true, hmany, Option.bind_none]
    rw [load_eq]
    unfold rdVectors
    simp only [e0, Option.bind_some, hv, Option.bind_none]

/-- the number of bytes before the words -/
def wordsStart : Nat := 8 + 56 + 28

/-- the number of bytes of the first `i` entries: the word, the marker, eight bytes of count, one of type -/
def entriesLength {W : Type} (enc : W → List Nat) (words : List (W × Int)) (i : Nat) : Nat :=
  ((words.take i).map fun e => (enc e.1).length + 10).sum

theorem flatMap_length {W : Type} (enc : W → List Nat) (words : List (W × Int)) :
    (words.flatMap (entryBytes enc)).length = (words.map fun e => (enc e.1).length + 10).sum := by
  induction words with
  | nil => rfl
  | cons e ws ih =>
    rw [List.flatMap_cons, List.length_append, ih, List.map_cons, List.sum_cons]
    congr 1
    simp [entryBytes, packInt_length]

theorem rdBeforeWords_bytes {W : Type} [DecidableEq W] (enc : W → List Nat) (dec : List Nat → W)
    (dim : Nat) (o : Overrides) (m : FTModel W) (h : Savable enc dec dim m)
    (ho1 : ∀ v, o.wordNgrams = some v → Fits 4 v) (ho2 : ∀ v, o.lrUpdateRate = some v → Fits 4 v) (f : List Nat) :
    rdBeforeWords (signBytes ++ (headerBytes (headerFor o m) ++ (packInt 4 m.words.length ++ (packInt 4 m.words.length ++
      (packInt 4 0 ++ (packInt 8 m.corpusTotalWords ++ (packInt 8 (-1) ++ f))))))) = some ((m.words.length : Int), f) := by
  have hsmall : ∀ v : Int, -1 ≤ v → v ≤ 1000 → Fits 4 v := by
    intro v h1 h2; unfold Fits; norm_num; omega
  have hn : Fits 4 (m.words.length : Nat) := by
    have := h.nwords; unfold Fits; norm_num; omega
  have hm : Fits 4 magic := by unfold Fits magic; norm_num
  have ht := headerTail_bytes (headerFor o m)
  unfold rdBeforeWords rdStart signBytes headerBytes
  simp only [List.append_assoc]
  rw [rdInt_pack 4 (by decide) _ hm]
  simp only [Option.bind_some, if_true]
  rw [rdInt_pack 4 (by decide) _ (hsmall _ (by omega) (by omega))]
  simp only [Option.bind_some]
  rw [rdInt_pack 4 (by decide) _ (by change Fits 4 m.vectorSize; rw [h.dimEq]; exact h.dimFits)]
  simp only [Option.bind_some]
  rw [rdInt_pack 4 (by decide) _ (by exact h.ws)]
  simp only [Option.bind_some]
  rw [ht _ h.epoch h.minCount h.neg ?_ ?_ ?_ h.bucket h.minn h.maxn ?_ h.sample]
  · simp only [Option.bind_some, decide_true, if_true]
    rw [rdInt_pack 4 (by decide) _ hn]
    simp only [Option.bind_some]
    rw [rdInt_pack 4 (by decide) _ hn]
    simp only [Option.bind_some]
    rw [rdInt_pack 4 (by decide) _ (by unfold Fits; norm_num)]
    simp only [Option.bind_some]
    rw [if_neg (by omega), rdInt_pack 8 (by decide) _ h.total]
    simp only [Option.bind_some]
    rw [rdInt_pack 8 (by decide) _ (by unfold Fits; norm_num)]
    simp only [Option.bind_some]
  · change Fits 4 (o.wordNgrams.getD 1)
    cases e : o.wordNgrams with
    | none => exact hsmall 1 (by omega) (by omega)
    | some v => exact ho1 v e
  · change Fits 4 (if m.hs = 1 then 1 else 2)
    split
    · exact hsmall 1 (by omega) (by omega)
    · exact hsmall 2 (by omega) (by omega)
  · change Fits 4 (if m.sg = 1 then 2 else 1)
    split
    · exact hsmall 2 (by omega) (by omega)
    · exact hsmall 1 (by omega) (by omega)
  · change Fits 4 (o.lrUpdateRate.getD 100)
    cases e : o.lrUpdateRate with
    | none => exact hsmall 100 (by omega) (by omega)
    | some v => exact ho2 v e

/-- a reader that needs exactly the bytes `used`, on a beginning of them and more -/
theorem Exact.on_take {α : Type} {r : Rd α} (hr : Exact r) {used g : List Nat} {a : α} (h : r (used ++ g) = some (a, g)) (t : Nat) :
    (t < used.length → r ((used ++ g).take t) = none) ∧
    (used.length ≤ t → r ((used ++ g).take t) = some (a, g.take (t - used.length))) := by
  obtain ⟨u, e, hg, hcut⟩ := hr _ _ _ h
  obtain rfl : used = u := List.append_cancel_right e
  constructor
  · intro ht
    rw [List.take_append_of_le_length (by omega)]
    exact hcut t ht
  · intro ht
    obtain ⟨s, rfl⟩ : ∃ s, t = used.length + s := ⟨t - used.length, by omega⟩
    rw [List.take_length_add_append, hg, Nat.add_sub_cancel_left]

/-- **C152** Of a saved model cut at `t` bytes, loading never returns exactly if the cut is at the start of a word of the
vocabulary, inside it, or right before its marker. Everywhere else (`C152_cut`) it raises. -/
theorem C152_hangs {W : Type} [DecidableEq W] (enc : W → List Nat) (dec : List Nat → W)
    (dim : Nat) (o : Overrides) (m : FTModel W) (h : Savable enc dec dim m)
    (ho1 : ∀ v, o.wordNgrams = some v → Fits 4 v) (ho2 : ∀ v, o.lrUpdateRate = some v → Fits 4 v)
    (file : List Nat) (hs : save enc dim o m = some file) (t : Nat) :
    Hangs dec (file.take t) ↔ ∃ i, ∃ e, m.words[i]? = some e ∧ wordsStart + entriesLength enc m.words i ≤ t ∧
      t ≤ wordsStart + entriesLength enc m.words i + (enc e.1).length := by
  have hl : lossField m.hs = some (if m.hs = 1 then 1 else 2) := by
    unfold lossField; rcases h.hs with e | e <;> simp [e]
  obtain ⟨post, hfile⟩ : ∃ post, file = (signBytes ++ (headerBytes (headerFor o m) ++ (packInt 4 m.words.length ++
      (packInt 4 m.words.length ++ (packInt 4 0 ++ (packInt 8 m.corpusTotalWords ++ packInt 8 (-1))))))) ++
      (m.words.flatMap (entryBytes enc) ++ post) := by
    unfold save headerOf at hs
    rw [hl] at hs
    simp only [Option.bind_eq_bind, Option.bind_some, Option.bind_eq_some_iff] at hs
    obtain ⟨hd, e0, i, _, out, _, e⟩ := hs
    cases e0
    cases e
    refine ⟨[0] ++ (i ++ ([0] ++ out)), ?_⟩
    simp [headerFor, Overrides.apply, dictBytes]
  subst hfile
  generalize hpre : (signBytes ++ (headerBytes (headerFor o m) ++ (packInt 4 m.words.length ++
      (packInt 4 m.words.length ++ (packInt 4 0 ++ (packInt 8 m.corpusTotalWords ++ packInt 8 (-1))))))) = pre
  have hlen : pre.length = wordsStart := by
    rw [← hpre]
    simp [signBytes, headerBytes, packInt_length, leBytes_length, wordsStart]
  have hrd : ∀ g, rdBeforeWords (pre ++ g) = some ((m.words.length : Int), g) := by
    intro g
    rw [← hpre]
    have := rdBeforeWords_bytes enc dec dim o m h ho1 ho2 g
    simpa only [List.append_assoc] using this
  have hpart : ∀ i g, i ≤ m.words.length →
      rdMany (rdEntry dec) i ((m.words.take i).flatMap (entryBytes enc) ++ g) = some (m.words.take i, g) := by
    intro i g hi
    have := rdMany_flatMap (rdEntry dec) (entryBytes enc) id (m.words.take i) (fun e he g =>
      rdEntry_bytes enc dec e (h.noNul e (List.mem_of_mem_take he)) (h.decodes e (List.mem_of_mem_take he))
        (h.count e (List.mem_of_mem_take he)) g) g
    rw [List.length_take, Nat.min_eq_left hi, List.map_id] at this
    exact this
  have hsplit : ∀ i e, m.words[i]? = some e → m.words.flatMap (entryBytes enc) ++ post =
      (m.words.take i).flatMap (entryBytes enc) ++ (enc e.1 ++ 0 :: (packInt 8 e.2 ++ [0] ++
        ((m.words.drop (i + 1)).flatMap (entryBytes enc) ++ post))) := by
    intro i e he
    obtain ⟨hi, rfl⟩ := List.getElem?_eq_some_iff.1 he
    have e : m.words = m.words.take i ++ m.words[i] :: m.words.drop (i + 1) := by
      rw [← List.drop_eq_getElem_cons hi, List.take_append_drop]
    have e2 := congrArg (fun l => l.flatMap (entryBytes enc) ++ post) e
    refine Eq.trans e2 ?_
    rw [List.flatMap_append, List.flatMap_cons]
    simp [entryBytes]
  have hel : ∀ i, ((m.words.take i).flatMap (entryBytes enc)).length = entriesLength enc m.words i :=
    fun i => flatMap_length enc _
  have hnz : ∀ (w g : List Nat) (s : Nat), 0 ∉ w → (0 ∉ (w ++ 0 :: g).take s ↔ s ≤ w.length) := by
    intro w g s hw
    constructor
    · intro h0
      by_contra hlt
      obtain ⟨k, rfl⟩ : ∃ k, s = w.length + (k + 1) := ⟨s - w.length - 1, by omega⟩
      rw [List.take_length_add_append, List.take_succ_cons] at h0
      exact h0 (List.mem_append_right _ (List.mem_cons_self ..))
    · intro hle hm
      rw [List.take_append_of_le_length hle] at hm
      exact hw (List.mem_of_mem_take hm)
  constructor
  · rintro ⟨n, f1, i, es, f2, h1, h2, h3, h4⟩
    have hb := exact_rdBeforeWords.on_take (hrd (m.words.flatMap (entryBytes enc) ++ post)) t
    by_cases ht : t < pre.length
    · rw [hb.1 ht] at h1; cases h1
    · rw [hb.2 (by omega)] at h1
      cases h1
      rw [Int.toNat_natCast] at h2
      have hi : m.words[i]? = some m.words[i] := List.getElem?_eq_getElem h2
      rw [hsplit i _ hi] at h3
      have hc := (exact_rdMany (exact_rdEntry dec) i).on_take (hpart i (enc m.words[i].1 ++ 0 :: (packInt 8 m.words[i].2 ++ [0] ++
        ((m.words.drop (i + 1)).flatMap (entryBytes enc) ++ post))) (by omega)) (t - pre.length)
      by_cases ht2 : t - pre.length < ((m.words.take i).flatMap (entryBytes enc)).length
      · rw [hc.1 ht2] at h3; cases h3
      · rw [hc.2 (by omega)] at h3
        cases h3
        rw [hnz _ _ _ (h.noNul _ (List.getElem_mem h2)), hel] at h4
        rw [hel] at ht2
        exact ⟨i, _, hi, by omega, by omega⟩
  · rintro ⟨i, e, he, h1, h2⟩
    obtain ⟨hi, rfl⟩ := List.getElem?_eq_some_iff.1 he
    have hb := (exact_rdBeforeWords.on_take (hrd (m.words.flatMap (entryBytes enc) ++ post)) t).2 (by omega)
    have hc := ((exact_rdMany (exact_rdEntry dec) i).on_take (hpart i (enc m.words[i].1 ++ 0 :: (packInt 8 m.words[i].2 ++ [0] ++
        ((m.words.drop (i + 1)).flatMap (entryBytes enc) ++ post))) (by omega)) (t - pre.length)).2 (by rw [hel]; omega)
    refine ⟨_, _, i, m.words.take i, (enc m.words[i].1 ++ 0 :: (packInt 8 m.words[i].2 ++ [0] ++
        ((m.words.drop (i + 1)).flatMap (entryBytes enc) ++ post))).take (t - pre.length -
          ((m.words.take i).flatMap (entryBytes enc)).length), hb, by rw [Int.toNat_natCast]; exact hi, ?_, ?_⟩
    · rw [hsplit i _ he]; exact hc
    · rw [hnz _ _ _ (h.noNul _ (List.getElem_mem hi)), hel]; omega

/-- a model of two words: cut inside the first word the file keeps the loader busy for ever -/
example : ∃ file, save encode 1 ⟨none, none⟩ exModel = some file ∧ load decode true file ≠ none ∧
    Hangs decode (file.take wordsStart) := by
  obtain ⟨file, h1, h2⟩ := C44_load_save encode decode 1 ⟨none, none⟩ exModel exModel_savable (by simp) (by simp)
    _ rfl (by unfold MatOk; decide +kernel) true
  refine ⟨file, h1, by rw [h2]; simp, ?_⟩
  rw [C152_hangs encode decode 1 ⟨none, none⟩ exModel exModel_savable (by simp) (by simp) file h1]
  exact ⟨0, _, rfl, by simp [entriesLength], by simp [entriesLength]⟩

end Verif.FastText.Bin
