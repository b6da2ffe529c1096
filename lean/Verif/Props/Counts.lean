import Verif.Props.Bounds

/-!
# What the counters count (C77, and the entries of `freqs()` in C40)
-/

namespace VGram.Props

open VGram Spec

variable {F : Type}

/-- The sequences handed to `accept` while the model had been rebuilt `j` times. -/
def readAt (E : Env F) (j : Nat) : Stream F → List Call → List IntSeq
  | _, [] => []
  | m, c :: cs =>
    (match c with
      | .accept seq => if rebuilds m = j then [seq] else []
      | _ => []) ++
    match call E m c with
    | .ok m' => readAt E j m' cs
    | .error _ => []

/-- There are readings `outs` of the texts `R` by words of `words`, one per text, such that `freq` counts the words and `pair` the
adjacent words in these readings; `power` is the number of words read and `chars` the number of symbols. -/
def Counts (words : List IntSeq) (freq : Nat → Int) (pair : Int × Int → Int) (power chars : Int) (R : List IntSeq) : Prop :=
  ∃ outs : List (List Int), List.Forall₂ (Spells words) outs R ∧ (∀ k : Nat, freq k = (outs.flatten.count (k : Int) : Int)) ∧
    (∀ e : Int × Int, pair e = ((outs.map fun o => ((o.zip o.tail).count e : Int)).sum)) ∧
    power = (outs.flatten.length : Int) ∧ chars = (R.flatten.length : Int)

theorem Counts.nil {words : List IntSeq} {freq : Nat → Int} {pair : Int × Int → Int} (hf : ∀ k, freq k = 0) (hp : ∀ e, pair e = 0) :
    Counts words freq pair 0 0 [] := ⟨[], .nil, by simpa using hf, by simpa using hp, rfl, rfl⟩

theorem spellsAll_mono {words words' : List IntSeq} (h : ∀ i w, IsWord words i w → IsWord words' i w) {outs : List (List Int)} {R : List IntSeq}
    (hs : List.Forall₂ (Spells words) outs R) : List.Forall₂ (Spells words') outs R := by
  induction hs with
  | nil => exact .nil
  | cons a _ ih =>
    refine .cons ?_ ih
    obtain ⟨ws, h1, h2⟩ := a
    exact ⟨ws, h1.imp fun i w => h i w, h2⟩

theorem spellsAll_snoc {words : List IntSeq} {outs : List (List Int)} {R : List IntSeq} (hs : List.Forall₂ (Spells words) outs R) {o : List Int} {r : IntSeq}
    (h : Spells words o r) : List.Forall₂ (Spells words) (outs ++ [o]) (R ++ [r]) := by
  induction hs with
  | nil => exact .cons h .nil
  | cons a _ ih => exact .cons a ih

theorem Counts.mono {words words' : List IntSeq} (h : ∀ i w, IsWord words i w → IsWord words' i w) {freq freq' : Nat → Int} (hf : ∀ k, freq' k = freq k)
    {pair : Int × Int → Int} {power chars : Int} {R : List IntSeq} (hs : Counts words freq pair power chars R) : Counts words' freq' pair power chars R := by
  obtain ⟨outs, h1, h2, h3⟩ := hs
  exact ⟨outs, spellsAll_mono h h1, fun k => (hf k).trans (h2 k), h3⟩

theorem Counts.map {words : List IntSeq} {freq : Nat → Int} {pair : Int × Int → Int} {power chars : Int} {R : List IntSeq} (hs : Counts words freq pair power chars R) (f : Int → Int) :
    Counts (words.map (List.map f)) freq pair power chars (R.map (List.map f)) := by
  obtain ⟨outs, h1, h2, h3, h4, h5⟩ := hs
  refine ⟨outs, ?_, h2, h3, h4, by rw [h5]; simp [List.length_flatten, Function.comp_def]⟩
  clear h2 h3 h4 h5
  induction h1 with
  | nil => exact .nil
  | cons a _ ih => exact .cons (a.map f) ih

/-- The counters of one statistics dictionary. -/
abbrev SCounts (s : StatDict F) (R : List IntSeq) : Prop := Counts s.dict.seqs (fq s.symbolFreqs) (pairGet s.pairs) s.power s.totalChars R

theorem SCounts.parse {O : FloatOps F} (SL : ScoreLaws O) {s s' : StatDict F} (hi : SInv s) {R : List IntSeq} (hs : SCounts s R) {seq : IntSeq}
    {ids : List Int} {c : Int} (h : s.parse O seq [] = .ok (s', ids, c)) : SCounts s' (R ++ [seq]) := by
  obtain ⟨s3, ids3, p1, p2, p3, p4, p5, _, p7, _, p9, _, _, _, p13, _⟩ := statParse_spec SL hi seq [] (by simp)
  rw [h] at p1
  simp only [List.nil_append, Except.ok.injEq, Prod.mk.injEq] at p1 p5 p7 p13
  obtain ⟨rfl, rfl, _⟩ := p1
  obtain ⟨outs, h1, h2, h3, h4, h5⟩ := hs
  refine ⟨outs ++ [ids], spellsAll_snoc (spellsAll_mono (fun i w hw => p3.isWord hw) h1) p4, fun k => ?_, fun e => ?_, ?_, ?_⟩
  · rw [p5, h2]
    simp
  · rw [p13, h3]
    simp [adj]
  · rw [p7, h4]
    simp
  · rw [p9, h5]
    simp

theorem SCounts.ofSeqs {words : List IntSeq} {mp : F} {fr : Option (List Int)} {s : StatDict F} (h : StatDict.ofSeqs words mp fr = .ok s) : SCounts s [] := by
  unfold StatDict.ofSeqs at h
  obtain ⟨d, _, h⟩ := bind_ok.1 h
  cases fr with
  | none => cases h; exact Counts.nil (fun k => fq_zero _ _) fun e => rfl
  | some l => cases h; exact Counts.nil (fun k => fq_zero _ _) fun e => rfl

/-- The counters of all dictionaries of a builder: dictionary `i` was given the texts `R i`. -/
structure Counted (b : Builder F) (R : Nat → List IntSeq) : Prop where
  all : ∀ i s, b.stats[i]? = some s → SCounts s (R i)
  last : b.current + 1 = b.stats.length
  later : ∀ i, b.stats.length ≤ i → R i = []

theorem Counted.update {E : Env F} {b b' : Builder F} {R : Nat → List IntSeq} (k : Counted b R) (h : b.update E = .ok b') : Counted b' R := by
  rcases update_cases h with ⟨rfl, _⟩ | ⟨s, s', words, freqs, mp, _, u⟩
  · exact k
  · refine ⟨fun i t ht => ?_, by rw [u.stats, u.current]; simp, fun i hi => k.later i (by rw [u.stats] at hi; simp at hi; omega)⟩
    rw [u.stats] at ht
    by_cases hi : i < b.stats.length
    · rw [List.getElem?_append_left hi] at ht
      exact k.all i t ht
    · rw [List.getElem?_append_right (by omega)] at ht
      have := List.mem_of_getElem? ht
      rw [List.mem_singleton] at this
      subst this
      rw [k.later i (by omega)]
      exact SCounts.ofSeqs u.made

/-- `R` after `seq` was given to dictionary `c`. -/
def gave (R : Nat → List IntSeq) (c : Nat) (seq : IntSeq) (i : Nat) : List IntSeq := R i ++ if c = i then [seq] else []

theorem Counted.accept {E : Env F} (SL : ScoreLaws E.ops) {b b' : Builder F} {n m : Nat} (t : TInv b n) {R : Nat → List IntSeq} (k : Counted b R)
    {seq : IntSeq} (ha : Arrive n seq m) (h : b.accept E seq = .ok b') : Counted b' (gave R b.current seq) := by
  obtain ⟨s, s', ids, e1, e2, e3, _⟩ := accept_parse SL t ha
  obtain ⟨s2, c1, hh, _⟩ := t.cur
  rw [e1] at c1
  cases c1
  have hlt := (List.getElem?_eq_some_iff.1 e1).1
  have k1 : Counted { b with stats := b.stats.set b.current s' } (gave R b.current seq) := by
    refine ⟨fun i u hu => ?_, by simpa using k.last, fun i hi => ?_⟩
    · unfold gave
      simp only at hu
      by_cases hi : b.current = i
      · subst hi
        rw [List.getElem?_set_self hlt] at hu
        cases hu
        rw [if_pos rfl]
        exact (k.all _ s e1).parse SL hh.inv e2
      · rw [List.getElem?_set_ne hi] at hu
        rw [if_neg hi, List.append_nil]
        exact k.all i u hu
    · simp only [List.length_set] at hi
      rw [gave, k.later i hi, if_neg (by omega)]
      rfl
  rcases ready_update e1 e2 h with rfl | hu
  · exact k1
  · exact k1.update hu

theorem Counted.set {b : Builder F} {R : Nat → List IntSeq} (k : Counted b R) {i : Nat} {s s' : StatDict F} (hs : b.stats[i]? = some s)
    (h : SCounts s (R i) → SCounts s' (R i)) : Counted { b with stats := b.stats.set i s' } R := by
  have hlt := (List.getElem?_eq_some_iff.1 hs).1
  refine ⟨fun j u hu => ?_, by simpa using k.last, fun j hj => k.later j (by simpa using hj)⟩
  simp only at hu
  by_cases hi : i = j
  · subst hi
    rw [List.getElem?_set_self hlt] at hu
    cases hu
    exact h (k.all _ s hs)
  · rw [List.getElem?_set_ne hi] at hu
    exact k.all j u hu

/-- The symbol with a given code. -/
def symbolOf (hist : List Int) (k : Int) : Int := (seen hist)[k.toNat]?.getD 0

theorem symbolOf_grow {hist seq : List Int} {k : Int} (h0 : 0 ≤ k) (h : k < ((seen hist).length : Int)) : symbolOf (hist ++ seq) k = symbolOf hist k := by
  obtain ⟨t, ht⟩ := seen_append_prefix hist seq
  unfold symbolOf
  rw [← ht, List.getElem?_append_left (by omega)]

/-- The counters of a stream model: dictionary `i` was given the texts `S i`. -/
structure SCounted (m : Stream F) (hist : List Int) (S : Nat → List IntSeq) : Prop where
  codes : ∃ R, Counted m.builder R ∧ (∀ i, ∀ w ∈ R i, ∀ x ∈ w, 0 ≤ x ∧ x < ((seen hist).length : Int)) ∧
    ∀ i, (R i).map (List.map (symbolOf hist)) = S i

theorem SCounted.accept {E : Env F} (SL : ScoreLaws E.ops) {m m' : Stream F} {hist : List Int} (hi : StreamInv m hist) {S : Nat → List IntSeq}
    (h : SCounted m hist S) {seq : IntSeq} (ha : m.accept E seq = .ok m') : SCounted m' (hist ++ seq) (gave S (rebuilds m) seq) := by
  simp only [Stream.accept] at ha
  obtain ⟨b', hb, ha⟩ := bind_ok.1 ha
  cases ha
  obtain ⟨c1, c2⟩ := hi.coder.encode seq
  have harr := encode_arrive seq hist
  rw [← c2] at harr
  obtain ⟨R, r1, r2, r3⟩ := h.codes
  have hcur : rebuilds m = m.builder.current := by
    have := r1.last
    unfold rebuilds
    omega
  have hlen := seen_length_le hist seq
  refine ⟨⟨_, r1.accept SL hi.tinv harr hb, fun i w hw x hx => ?_, fun i => ?_⟩⟩
  · rcases List.mem_append.1 hw with hw | hw
    · have := r2 i w hw x hx
      omega
    · split at hw
      · rw [List.mem_singleton.1 hw] at hx
        exact (arrive_mem harr x).1 (Or.inr hx)
      · simp at hw
  · unfold gave
    rw [List.map_append, hcur]
    congr 1
    · rw [← r3]
      apply List.map_congr_left
      intro w hw
      apply List.map_congr_left
      intro x hx
      exact symbolOf_grow (r2 i w hw x hx).1 (r2 i w hw x hx).2
    · split
      · rw [c2, List.map_singleton, List.map_map]
        congr 1
        conv_rhs => rw [← List.map_id seq]
        apply List.map_congr_left
        intro x hx
        exact getD_idxOf (seen_mem.2 (by simp [hx]))
      · rfl

theorem SCounted.setDict {m : Stream F} {hist : List Int} {S : Nat → List IntSeq} (h : SCounted m hist S) {d d' : IntDict} (hg : m.getDict = .ok d)
    (hd : ∀ i w, IsWord d.seqs i w → IsWord d'.seqs i w) : SCounted (m.setDict d') hist S := by
  obtain ⟨R, r1, r2, r3⟩ := h.codes
  refine ⟨⟨R, ?_, r2, r3⟩⟩
  obtain ⟨size, b, dict, own, coder, freqs, total, mp⟩ := m
  cases dict with
  | null => exact r1
  | own => exact r1
  | stat i =>
    simp only [Stream.getDict] at hg
    obtain ⟨s, hs, hg⟩ := bind_ok.1 hg
    cases hg
    have hs := rd_nat_ok.1 hs
    have hset : (b.stats.modify i fun t => { t with dict := d' }) = b.stats.set i { s with dict := d' } := by
      apply List.ext_getElem?
      intro j
      rw [List.getElem?_modify, List.getElem?_set]
      by_cases hj : i = j
      · subst hj
        rw [hs]
        simp [(List.getElem?_eq_some_iff.1 hs).1]
      · simp [hj]
    simp only [Stream.setDict, hset]
    exact r1.set hs fun hc => hc.mono hd fun _ => rfl

theorem SCounted.update {O : FloatOps F} {m m' : Stream F} {hist : List Int} {S : Nat → List IntSeq} (h : SCounted m hist S) (hu : m.updateDict O = .ok m') :
    SCounted m' hist S := by
  obtain ⟨R, r1, r2, r3⟩ := h.codes
  simp only [Stream.updateDict] at hu
  split at hu
  · cases hu
    exact h
  · obtain ⟨⟨b, fr⟩, hb, hu⟩ := bind_ok.1 hu
    obtain ⟨mp, _, hu⟩ := bind_ok.1 hu
    cases hu
    simp only [Builder.resultFreqs] at hb
    obtain ⟨s, hs, hb⟩ := bind_ok.1 hb
    cases hb
    refine ⟨⟨R, r1.set (rd_nat_ok.1 hs) fun hc => hc.mono (fun _ _ hw => hw) fun k => fq_padTo _ _ _, r2, r3⟩⟩

theorem run_counted {E : Env F} (L : EnvLaws E) (SL : ScoreLaws E.ops) {calls : List Call} {r r' : Bool} (h : Legal r calls r') :
    ∀ {m m' : Stream F} {hist : List Int} {S : Nat → List IntSeq}, StreamInv m hist → (r = true → m.dict ≠ .null) →
      ((seen (hist ++ accepted calls)).length : Int) ≤ m.builder.size + 1 → SCounted m hist S → run E m calls = .ok m' →
      SCounted m' (hist ++ accepted calls) fun i => S i ++ readAt E i m calls := by
  induction h with
  | nil =>
    intro m m' hist S _ _ _ h hr
    cases hr
    simpa [accepted, readAt] using h
  | @accept r r' seq cs hl ih =>
    intro m m' hist S hi hd hcap h hr
    simp only [accepted] at hcap ⊢
    rw [← List.append_assoc] at hcap
    obtain ⟨m1, a1, a2, a3⟩ := hi.accept L SL seq (by
      have := seen_length_le (hist ++ seq) (accepted cs)
      omega)
    simp only [run, call, a1, ok_bind] at hr
    have := ih a2 (by rw [a3.dict]; exact hd) (by rw [a3.bsize]; exact hcap) (h.accept SL hi a1) hr
    simpa [readAt, call, a1, gave, List.append_assoc] using this
  | @parse r' seq cs hl ih =>
    intro m m' hist S hi hd hcap h hr
    obtain ⟨d, d', ids, p1, p2, _, _, p3, p4, _⟩ := hi.parse SL (hd rfl) seq
    obtain ⟨f1, _, _, _, _, _, f7, _⟩ := m.setDict_frame d'
    simp only [run, call, p2, ok_bind, pure_M] at hr
    have := ih p3 (by rw [f1]; exact hd) (by rw [f7]; exact hcap) (h.setDict p1 fun i w hw => p4.isWord hw) hr
    simpa [readAt, call, p2, accepted, ok_bind, pure_M] using this
  | @update r r' cs hl ih =>
    intro m m' hist S hi hd hcap h hr
    obtain ⟨m1, u1, u2, u3, u4, _⟩ := hi.updateDict (O := E.ops)
    simp only [run, call, u1, ok_bind] at hr
    have := ih u2 (by simp [u3]) (by rw [u4]; exact hcap) (h.update u1) hr
    simpa [readAt, call, u1, accepted] using this

theorem SStart.counted {O : FloatOps F} {m : Stream F} {vals : List Int} {r : Bool} {cap : Int} (h : SStart O m vals r cap) : SCounted m vals fun _ => [] := by
  refine ⟨⟨fun _ => [], ?_, by simp, by simp⟩⟩
  cases h with
  | fresh h =>
    refine ⟨fun i s hs => ?_, rfl, fun _ _ => rfl⟩
    have := List.mem_of_getElem? hs
    simp only [Stream.new, Builder.new, List.mem_singleton] at this
    subst this
    exact Counts.nil (fun k => by simp [StatDict.new, fq]) fun e => rfl
  | loaded h1 h2 h3 h4 =>
    simp only [Stream.ofSaved] at h4
    obtain ⟨d, _, h4⟩ := bind_ok.1 h4
    obtain ⟨b, hb, h4⟩ := bind_ok.1 h4
    cases h4
    simp only [Builder.ofSaved] at hb
    obtain ⟨s, hs, hb⟩ := bind_ok.1 hb
    cases hb
    refine ⟨fun i t ht => ?_, rfl, fun _ _ => rfl⟩
    have := List.mem_of_getElem? ht
    rw [List.mem_singleton] at this
    subst this
    exact SCounts.ofSeqs hs

/-! ## C77 -/

/-- The sequences handed to `accept`, in order. -/
def texts : List Call → List IntSeq
  | [] => []
  | .accept seq :: cs => seq :: texts cs
  | _ :: cs => texts cs

theorem call_rebuilds {E : Env F} {m m' : Stream F} {c : Call} (h : call E m c = .ok m') : rebuilds m ≤ rebuilds m' := by
  unfold rebuilds
  cases c with
  | accept seq =>
    simp only [call, Stream.accept] at h
    obtain ⟨b', hb, h⟩ := bind_ok.1 h
    cases h
    obtain ⟨_, _, k⟩ := act_heap (E := E) (b := m.builder) (a := .accept (m.coder.encode seq).2) hb
    simp only at k ⊢
    omega
  | parse seq =>
    simp only [call] at h
    obtain ⟨⟨m2, ids⟩, hp, h⟩ := bind_ok.1 h
    cases h
    simp only [Stream.parse] at hp
    obtain ⟨_, _, hp⟩ := bind_ok.1 hp
    obtain ⟨_, _, hp⟩ := bind_ok.1 hp
    obtain ⟨⟨d, o⟩, _, hp⟩ := bind_ok.1 hp
    cases hp
    obtain ⟨_, _, _, _, _, _, _, _, _, f10⟩ := m.setDict_frame d
    rw [f10]
  | update =>
    simp only [call, Stream.updateDict] at h
    split at h
    · cases h
      exact le_refl _
    · obtain ⟨⟨b, fr⟩, hb, h⟩ := bind_ok.1 h
      obtain ⟨mp, _, h⟩ := bind_ok.1 h
      cases h
      simp only [Builder.resultFreqs] at hb
      obtain ⟨s, hs, hb⟩ := bind_ok.1 hb
      cases hb
      simp

theorem readAt_before {E : Env F} : ∀ {calls : List Call} {m : Stream F} {j : Nat}, j < rebuilds m → readAt E j m calls = [] := by
  intro calls
  induction calls with
  | nil => intros; rfl
  | cons c cs ih =>
    intro m j hj
    simp only [readAt]
    have h1 : (match c with | .accept seq => if rebuilds m = j then [seq] else [] | _ => []) = ([] : List IntSeq) := by
      split
      · rw [if_neg (by omega)]
      · rfl
    rw [h1, List.nil_append]
    split
    · next m' hm => exact ih (lt_of_lt_of_le hj (call_rebuilds hm))
    · rfl

theorem flatMap_from {f : Nat → List IntSeq} {r K : Nat} (hr : r < K) (h : ∀ j < r, f j = []) (x : List IntSeq) :
    (List.range K).flatMap (fun j => (if r = j then x else []) ++ f j) = x ++ (List.range K).flatMap f := by
  obtain ⟨t, rfl⟩ : ∃ t, K = r + (1 + t) := ⟨K - r - 1, by omega⟩
  have e1 : ∀ g : Nat → List IntSeq, (List.range (r + (1 + t))).flatMap g =
      (List.range r).flatMap g ++ (g r ++ (List.range t).flatMap fun k => g (r + (1 + k))) := by
    intro g
    rw [List.range_add, List.flatMap_append, List.flatMap_map, List.range_add, List.flatMap_append, List.flatMap_map]
    simp
  have e2 : ∀ g : Nat → List IntSeq, (∀ j < r, g j = []) → (List.range r).flatMap g = [] := by
    intro g hg
    rw [List.flatMap_eq_nil_iff]
    intro j hj
    exact hg j (by simpa using hj)
  rw [e1, e1, e2 f h, e2 _ (fun j hj => by rw [if_neg (by omega), h j hj]; rfl)]
  have e3 : (fun k => (if r = r + (1 + k) then x else []) ++ f (r + (1 + k))) = fun k => f (r + (1 + k)) := by
    funext k
    rw [if_neg (by omega)]
    rfl
  rw [e3]
  simp

theorem readAt_split {E : Env F} : ∀ {calls : List Call} {m m' : Stream F}, run E m calls = .ok m' →
    rebuilds m ≤ rebuilds m' ∧ (List.range (rebuilds m' + 1)).flatMap (fun j => readAt E j m calls) = texts calls := by
  intro calls
  induction calls with
  | nil =>
    intro m m' h
    cases h
    exact ⟨le_refl _, by simp [readAt, texts]⟩
  | cons c cs ih =>
    intro m m' h
    simp only [run] at h
    obtain ⟨m1, h1, h⟩ := bind_ok.1 h
    obtain ⟨i1, i2⟩ := ih h
    have h0 := call_rebuilds h1
    refine ⟨h0.trans i1, ?_⟩
    simp only [readAt, h1]
    cases c with
    | accept seq =>
      simp only [texts]
      rw [flatMap_from (by omega) (fun j hj => readAt_before (by omega)), i2]
      rfl
    | parse seq => simpa [texts] using i2
    | update => simpa [texts] using i2

/-- C77: every statistics dictionary counts exactly the texts read since the rebuild that made it (the first one: since the
start).  There are readings of these texts by the words of the dictionary - one for every accepted sequence, none left out and
none counted twice - such that the counter of word `k` is the number of times `k` occurs in them, the counter of a pair the
number of times its words follow each other within one text, and the two totals the numbers of words and of symbols in them.
Words and texts are compared in the caller's symbols. -/
theorem C77_counts (E : Env F) (L : EnvLaws E) (SL : ScoreLaws E.ops) (m0 : Stream F) (vals : List Int) (calls : List Call) (r : Bool)
    (h : Admissible E.ops m0 vals calls r) :
    ∃ m, run E m0 calls = .ok m ∧
      (∀ (j : Nat) s, m.builder.stats[j]? = some s → ∃ ws, Stream.decodeAll m.coder s.dict.seqs = .ok ws ∧
        Counts ws (fun k => s.freq k) (fun e => (s.pairs.lookup e).getD 0) s.power s.totalChars (readAt E j m0 calls)) ∧
      m.builder.stats.length = rebuilds m + 1 ∧
      (List.range (rebuilds m + 1)).flatMap (fun j => readAt E j m0 calls) = texts calls := by
  obtain ⟨m, h1, inv, _⟩ := h.inv L SL
  obtain ⟨r0, cap, k1, k2, k3⟩ := h.start
  obtain ⟨i1, i2, i3⟩ := k1.inv
  have hc := run_counted L SL k2 i1 i2 (by rw [i3]; exact k3) k1.counted h1
  obtain ⟨R, r1, r2, r3⟩ := hc.codes
  have hlen : m.builder.stats.length = rebuilds m + 1 := by
    have := r1.last
    unfold rebuilds
    omega
  refine ⟨m, h1, fun j s hs => ?_, hlen, (readAt_split h1).2⟩
  have hl := inv.tinv.heap s (List.mem_of_getElem? hs)
  refine ⟨_, decodeAll_ok inv.coder hl.symbols, ?_⟩
  have h4 := (r1.all j s hs).map (symbolOf (vals ++ accepted calls))
  rw [r3 j, List.nil_append] at h4
  exact h4.mono (fun _ _ hw => hw) fun k => freq_nat s k

set_option synthInstance.maxSize 2000 in
/-- Each of the three texts was read by another dictionary, and the last rebuild has not read anything yet.  The second text was
read as the one word `01`, the third as `01`, `1`, `01` (words 1, 2, 1 of the third dictionary). -/
example :
    let calls : List Call := [.accept [5, 6, 5, 6, 5], .accept [5, 6], .accept [5, 6, 6, 5, 6]]
    (do
      let m ← run quickEnv (Stream.new quickEnv.ops 4) calls
      pure ((List.range (rebuilds m + 1)).map fun j => readAt quickEnv j (Stream.new quickEnv.ops 4) calls,
        m.builder.stats.map fun s => (s.dict.seqs, s.symbolFreqs, s.pairs, s.power, s.totalChars)) :
      M (List (List IntSeq) × List (List IntSeq × List Int × PairMap × Int × Int))) =
    .ok ([[[5, 6, 5, 6, 5]], [[5, 6]], [[5, 6, 6, 5, 6]], []],
      [([[0], [1]], [3, 2], [((0, 1), 2), ((1, 0), 2)], 5, 5),
        ([[0], [0, 1], [1], [1, 0]], [0, 1, 0, 0], [], 1, 2),
        ([[0], [0, 1], [1]], [0, 2, 1], [((1, 2), 1), ((2, 1), 1)], 3, 5),
        ([[0], [0, 1], [0, 1, 1], [1], [1, 0, 1]], [0, 0, 0, 0, 0], [], 0, 0)]) := by
  dsimp only
  decide +kernel

/-! ## C40 -/

/-- C40, what the entries of `freqs()` are: an `update_dict` that publishes a dictionary appends to `freqs()` one entry for every
word of `alphabet()`, and entry `k` is the number of times word `k` was read in the texts that dictionary was given. -/
theorem C40_update_entries (E : Env F) (L : EnvLaws E) (SL : ScoreLaws E.ops) (m0 : Stream F) (vals : List Int) (calls : List Call) (r : Bool)
    (h : Admissible E.ops m0 vals calls r) :
    ∃ m m' ws, run E m0 calls = .ok m ∧ m.updateDict E.ops = .ok m' ∧ m'.alphabet = .ok ws ∧
      (m' = m ∨ ∃ (j : Nat) (fresh : List Int) (outs : List (List Int)), m'.dict = .stat j ∧ m'.freqs = m.freqs ++ fresh ∧
        m'.totalFreqs = m'.freqs.sum ∧ fresh.length = ws.length ∧
        List.Forall₂ (Spells ws) outs (readAt E j m0 calls) ∧ ∀ k : Nat, k < ws.length → fresh[k]? = some (outs.flatten.count (k : Int) : Int)) := by
  obtain ⟨m, h1, inv, _⟩ := h.inv L SL
  obtain ⟨m2, c1, c2, _⟩ := C77_counts E L SL m0 vals calls r h
  rw [h1] at c1
  cases c1
  obtain ⟨m', u1, u2, u3, _, _, _, u7, _, u9, u10⟩ := inv.updateDict (O := E.ops)
  obtain ⟨d, d1, d2⟩ := u2.getDict (by simp [u3])
  refine ⟨m, m', _, h1, u1, u2.alphabet d1 d2, ?_⟩
  by_cases he : m.dict = .stat m.builder.resultIdx
  · exact Or.inl (u9 he)
  · obtain ⟨s, s1, s2, s3, _, s5⟩ := u10 he
    have hs := inv.tinv.heap s (List.mem_of_getElem? s1)
    have hlt := inv.tinv.resultIdx_lt
    have hd : d = s.dict := by
      simp only [Stream.getDict, u3] at d1
      obtain ⟨t, t1, d1⟩ := bind_ok.1 d1
      rw [rd_nat_ok, s5, List.getElem?_set_self hlt] at t1
      cases t1
      cases d1
      rfl
    subst hd
    have hsh := hs.short
    have hlen : (StatDict.padTo s.symbolFreqs s.size).length = s.dict.seqs.length := by
      rw [padTo_length]
      simp only [StatDict.size, IntDict.size]
      omega
    obtain ⟨ws, w1, outs, o1, o2, _⟩ := c2 _ s s1
    rw [decodeAll_ok inv.coder hs.symbols] at w1
    cases w1
    refine Or.inr ⟨_, _, outs, u3, s2, by rw [s3, sumI_eq], by simpa [decodeWords] using hlen, o1, fun k hk => ?_⟩
    have hk' : k < (StatDict.padTo s.symbolFreqs s.size).length := by
      rw [hlen]
      simpa [decodeWords] using hk
    rw [← o2 k, List.getElem?_eq_getElem hk']
    dsimp only
    rw [freq_nat, ← fq_padTo s.symbolFreqs s.size k, fq, List.getElem?_eq_getElem hk']
    rfl

/-- C40, the part that holds, with the values: after the first `update_dict` of a fresh model entry `k` of `freqs()` is the
number of times word `k` of `alphabet()` was read. -/
theorem C40_first_entries_partial (E : Env F) (L : EnvLaws E) (SL : ScoreLaws E.ops) (size : Int) (calls : List Call)
    (h : Admissible E.ops (Stream.new E.ops size) [] calls false) :
    ∃ m m' ws, run E (Stream.new E.ops size) calls = .ok m ∧ m.updateDict E.ops = .ok m' ∧ m'.alphabet = .ok ws ∧
      m'.freqs.length = ws.length ∧ ∃ (j : Nat) (outs : List (List Int)), m'.dict = .stat j ∧
        List.Forall₂ (Spells ws) outs (readAt E j (Stream.new E.ops size) calls) ∧
        ∀ k : Nat, k < ws.length → m'.freqs[k]? = some (outs.flatten.count (k : Int) : Int) := by
  obtain ⟨m, m', ws, h1, h2, h3, h4⟩ := C40_update_entries E L SL _ _ calls false h
  obtain ⟨_, _, _, hl, _⟩ := h.start
  obtain ⟨a1, a2, _⟩ := onlyAccept_dict hl.onlyAccept h1
  refine ⟨m, m', ws, h1, h2, h3, ?_⟩
  rcases h4 with rfl | ⟨j, fresh, outs, k0, k1, _, k2, k3, k4⟩
  · exfalso
    unfold Stream.alphabet Stream.getDict at h3
    rw [show m'.dict = .null from a1] at h3
    cases h3
  · rw [show m.freqs = [] from a2, List.nil_append] at k1
    rw [k1]
    exact ⟨k2, j, outs, k0, k3, k4⟩

/-- The published dictionary is the third one, and `freqs()` has its counts. -/
example : (do
    let m ← run quickEnv (Stream.new quickEnv.ops 4) [.accept [5, 6, 5, 6, 5], .accept [5, 6], .accept [5, 6, 6, 5, 6]]
    let m' ← m.updateDict quickEnv.ops
    let ws ← m'.alphabet
    pure (m'.dict == .stat 2, m'.freqs, ws) : M (Bool × List Int × List IntSeq)) = .ok (true, [0, 2, 1], [[5], [5, 6], [6]]) := by decide +kernel

end VGram.Props
