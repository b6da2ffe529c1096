import Verif.Spec.Finite
import Verif.Props.Publish
import Verif.Props.Persist
import Verif.Props.JsonText
import Verif.Spec.Rounded
import Verif.Proofs.Narrow

/-!
# Models on disk (C80)
-/

namespace VGram.Props

open VGram Spec Dump Parse

variable {F : Type}

theorem expMin_finite {O : FloatOps F} (N : FiniteLaws O) {acc : Int} : ∀ (items : List (StatItem F)) (mp : F), O.isFinite mp = true →
    (∀ it ∈ items, 0 ≤ it.first → 0 ≤ it.count ∧ 1 ≤ acc) → O.isFinite (expMin O acc items mp) = true := by
  intro items
  induction items with
  | nil => intro mp h _; exact h
  | cons it items ih =>
    intro mp h hi
    refine ih _ ?_ fun i hi' => hi i (by simp [hi'])
    dsimp only
    split
    · next hf =>
      obtain ⟨h1, h2⟩ := hi it (by simp) hf
      exact min_finite h (N.div _ _ h1 h2)
    · exact h

theorem reduceLoop_finite {O : FloatOps F} (N : FiniteLaws O) {s : StatDict F} {power : Int} (hp : 0 ≤ power) :
    ∀ (items : List (StatItem F)) (mp : F) (r : List IntSeq × List Int × F), O.isFinite mp = true → (∀ it ∈ items, 0 ≤ it.count) →
    StatDict.reduceLoop O s power items mp = .ok r → O.isFinite r.2.2 = true := by
  intro items
  induction items with
  | nil => intro mp r hmp _ h; cases h; exact hmp
  | cons it items ih =>
    intro mp r hmp hi h
    simp only [StatDict.reduceLoop] at h
    obtain ⟨par, _, h⟩ := bind_ok.1 h
    obtain ⟨w, hw, h⟩ := bind_ok.1 h
    obtain ⟨⟨ws', fs', m'⟩, h2, h⟩ := bind_ok.1 h
    cases h
    have hsz : 1 ≤ (s.size : Int) := by
      have : 0 < s.dict.seqs.length := List.length_pos_of_mem (rd_mem hw)
      simp only [StatDict.size, IntDict.size]
      omega
    refine ih _ (ws', fs', m') ?_ (fun i hi' => hi i (by simp [hi'])) h2
    split
    · have hc := hi it (by simp)
      exact min_finite (N.div _ _ (by omega) (by omega)) hmp
    · exact hmp

theorem rebuild_finite {E : Env F} (L : EnvLaws E) (SL : ScoreLaws E.ops) (N : FiniteLaws E.ops) {b : Builder F} {s : StatDict F} (hh : Healthy s)
    (hmp : E.ops.isFinite s.minProb = true) {words : List IntSeq} {freqs : List Int} {mp : F} (h : b.rebuild E s = .ok (words, freqs, mp)) :
    E.ops.isFinite mp = true := by
  unfold Builder.rebuild at h
  split at h
  · obtain ⟨taken, rest, e1, _, _, _, _, _, e7, _⟩ := expand_shape L hh.expOk (b.expandSlots E.ops s)
    rw [e1] at h
    simp only [Except.ok.injEq, Prod.mk.injEq] at h
    rw [← h.2.2]
    refine expMin_finite N _ _ hmp fun it hit h0 => ?_
    rcases (e7 it (List.mem_append_left _ hit)).2 with ⟨n, _, rfl⟩ | ⟨_, _, g3, _⟩
    · simp [knownItem] at h0
    · have h1 := hh.ppos _ g3
      have h2 := pairSum_ge hh.ppos g3
      have h3 : pairSum (fun _ => true) s.pairs = sumI (s.pairs.map (·.2)) := by simp [pairSum, sumI_eq]
      rw [h3]
      dsimp only at h1 h2
      omega
  · obtain ⟨alt, kept, rest, m, r1, r2, _, _, r5, _⟩ := reduce_shape L SL hh _
    rw [r1] at h
    simp only [Except.ok.injEq, Prod.mk.injEq] at h
    have hcnt : ∀ it ∈ kept, 0 ≤ it.count := by
      intro it hit
      obtain ⟨n, w, _, _, _, e, _⟩ := (r5 it).1 (List.mem_append_left _ hit)
      rw [e]
      exact freq_nonneg_of hh.inv.nonneg _
    rw [← h.2.2]
    refine reduceLoop_finite N (sumI_nonneg ?_) _ _ _ (N.inv _ _ (by omega) hmp) hcnt r2
    intro f hf
    obtain ⟨it, hit, rfl⟩ := List.mem_map.1 hf
    exact hcnt it hit

/-- All probabilities of a builder are finite. -/
def AllFinite (O : FloatOps F) (b : Builder F) : Prop := ∀ s ∈ b.stats, O.isFinite s.minProb = true

theorem AllFinite.update {E : Env F} (L : EnvLaws E) (SL : ScoreLaws E.ops) (N : FiniteLaws E.ops) {b b' : Builder F} {n : Nat} (t : TInv b n)
    (h : AllFinite E.ops b) (hu : b.update E = .ok b') : AllFinite E.ops b' := by
  rcases update_cases hu with ⟨rfl, _⟩ | ⟨s, s', words, freqs, mp, _, u⟩
  · exact h
  · obtain ⟨s2, c1, hh, _⟩ := t.cur
    rw [u.cur] at c1
    cases c1
    have hm := rebuild_finite L SL N hh (h s (List.mem_of_getElem? u.cur)) u.work
    intro x hx
    rw [u.stats] at hx
    rcases List.mem_append.1 hx with hx | hx
    · exact h x hx
    · rw [List.mem_singleton] at hx
      have := u.made
      unfold StatDict.ofSeqs at this
      obtain ⟨d, _, this⟩ := bind_ok.1 this
      cases this
      rw [hx]
      exact hm

theorem AllFinite.accept {E : Env F} (L : EnvLaws E) (SL : ScoreLaws E.ops) (N : FiniteLaws E.ops) {b b' : Builder F} {n k : Nat} {seq : IntSeq} (t : TInv b n)
    (ha : Arrive n seq k) (h : AllFinite E.ops b) (hu : b.accept E seq = .ok b') : AllFinite E.ops b' := by
  obtain ⟨s, s', ids, p1, p2, p3, _⟩ := accept_parse (E := E) SL t ha
  have hset : AllFinite E.ops ({ b with stats := b.stats.set b.current s' } : Builder F) := by
    intro x hx
    rcases List.mem_or_eq_of_mem_set hx with hx | rfl
    · exact h x hx
    · rw [parse_minProb p2]
      exact h s (List.mem_of_getElem? p1)
  simp only [Builder.accept, cur_eq p1, ok_bind, p2] at hu
  split at hu
  · exact hset.update L SL N p3 hu
  · cases hu
    exact hset

theorem AllFinite.resultFreqs {O : FloatOps F} {b b' : Builder F} {fs fr : List Int} (h : AllFinite O b) (hr : b.resultFreqs fs = .ok (b', fr)) :
    AllFinite O b' := by
  simp only [Builder.resultFreqs] at hr
  obtain ⟨s, hs, hr⟩ := bind_ok.1 hr
  cases hr
  intro x hx
  rcases List.mem_or_eq_of_mem_set hx with hx | rfl
  · exact h x hx
  · exact h s (List.mem_of_getElem? (rd_nat_ok.1 hs))

/-- The probabilities a stream model stores are finite. -/
structure SFin (O : FloatOps F) (m : Stream F) : Prop where
  heap : AllFinite O m.builder
  fin : ∀ mp, m.minProb = some mp → O.isFinite mp = true

theorem SFin.setDict {O : FloatOps F} {m : Stream F} (h : SFin O m) (d : IntDict) : SFin O (m.setDict d) := by
  obtain ⟨_, _, _, _, f5, _⟩ := m.setDict_frame d
  refine ⟨fun s hs => ?_, fun mp hmp => h.fin mp (f5 ▸ hmp)⟩
  unfold Stream.setDict at hs
  split at hs
  · exact h.heap s hs
  · exact h.heap s hs
  · next i _ =>
    obtain ⟨k, hk⟩ := List.mem_iff_getElem?.1 hs
    simp only [List.getElem?_modify] at hk
    obtain ⟨t, ht, rfl⟩ := Option.map_eq_some_iff.1 hk
    have := h.heap t (List.mem_of_getElem? ht)
    split <;> exact this

theorem SFin.parse {O : FloatOps F} {m m' : Stream F} (h : SFin O m) {seq : IntSeq} {ids : List Int} (hp : m.parse O seq = .ok (m', ids)) : SFin O m' := by
  simp only [Stream.parse] at hp
  obtain ⟨_, _, hp⟩ := bind_ok.1 hp
  obtain ⟨_, _, hp⟩ := bind_ok.1 hp
  obtain ⟨⟨d, o⟩, _, hp⟩ := bind_ok.1 hp
  cases hp
  exact h.setDict d

theorem SFin.updateDict {O : FloatOps F} (N : FiniteLaws O) {m m' : Stream F} (h : SFin O m) (hu : m.updateDict O = .ok m') : SFin O m' := by
  simp only [Stream.updateDict] at hu
  split at hu
  · cases hu
    exact h
  · obtain ⟨⟨b, fr⟩, hb, hu⟩ := bind_ok.1 hu
    obtain ⟨mp, hmp, hu⟩ := bind_ok.1 hu
    cases hu
    have hb' := h.heap.resultFreqs hb
    refine ⟨hb', fun x hx => ?_⟩
    cases hx
    simp only [Builder.getMinProbability] at hmp
    split at hmp
    · cases hmp
      exact N.int _
    · obtain ⟨s, hs, hmp⟩ := bind_ok.1 hmp
      cases hmp
      exact hb' s (List.mem_of_getElem? (rd_nat_ok.1 hs))

theorem SFin.run {E : Env F} (L : EnvLaws E) (SL : ScoreLaws E.ops) (N : FiniteLaws E.ops) : ∀ (calls : List Call) {r r' : Bool} {m m' : Stream F} {hist : List Int},
    Legal r calls r' → StreamInv m hist → (r = true → m.dict ≠ .null) →
    ((seen (hist ++ accepted calls)).length : Int) ≤ m.builder.size + 1 → SFin E.ops m → run E m calls = .ok m' → SFin E.ops m' := by
  intro calls
  induction calls with
  | nil => intro r r' m m' hist _ _ _ _ hs h; cases h; exact hs
  | cons c cs ih =>
    intro r r' m m' hist hl inv hd hcap hs h
    simp only [Props.run] at h
    obtain ⟨m1, h1, h'⟩ := bind_ok.1 h
    cases c with
    | parse seq =>
      cases hl with
      | parse hl =>
        obtain ⟨d, d', ids, p1, p2, _, _, p3, _⟩ := inv.parse SL (hd rfl) seq
        obtain ⟨f1, _, _, _, _, _, f7, _⟩ := m.setDict_frame d'
        have he : call E m (.parse seq) = .ok (m.setDict d') := by simp only [call, p2, ok_bind, pure_M]
        rw [he] at h1
        cases h1
        exact ih hl p3 (by rw [f1]; exact hd) (by rw [f7]; exact hcap) (hs.setDict d') h'
    | accept seq =>
      cases hl with
      | accept hl =>
        simp only [accepted] at hcap
        rw [← List.append_assoc] at hcap
        obtain ⟨m2, a1, a2, a3⟩ := inv.accept L SL seq (by
          have := seen_length_le (hist ++ seq) (accepted cs)
          omega)
        rw [show call E m (.accept seq) = m.accept E seq from rfl, a1] at h1
        cases h1
        refine ih hl a2 (by rw [a3.dict]; exact hd) (by rw [a3.bsize]; exact hcap) ⟨?_, fun mp hmp => ?_⟩ h'
        · have ha := encode_arrive seq hist
          rw [← (inv.coder.encode seq).2] at ha
          exact hs.heap.accept L SL N inv.tinv ha a3.call
        · simp only [Stream.accept] at a1
          obtain ⟨b, _, a1⟩ := bind_ok.1 a1
          cases a1
          exact hs.fin mp hmp
    | update =>
      cases hl with
      | update hl =>
        obtain ⟨m2, u1, u2, u3, u4, _⟩ := inv.updateDict (O := E.ops)
        rw [show call E m .update = m.updateDict E.ops from rfl, u1] at h1
        cases h1
        exact ih hl u2 (by simp [u3]) (by rw [u4]; exact hcap) (hs.updateDict N u1) h'

theorem SFin.new {O : FloatOps F} (N : FiniteLaws O) (size : Int) : SFin O (Stream.new O size) := by
  refine ⟨fun s hs => ?_, fun mp h => by cases h⟩
  obtain rfl : s = StatDict.new (Builder.kMaxMinProbability O) := by simpa [Stream.new, Builder.new] using hs
  exact N.lit _ _

theorem SStart.sfin {O : FloatOps F} (N : FiniteLaws O) {m : Stream F} {vals : List Int} {r : Bool} {cap : Int} (h : SStart O m vals r cap)
    (hm : ∀ mp, m.minProb = some mp → O.isFinite mp = true) : SFin O m := by
  cases h with
  | @fresh size h => exact SFin.new N _
  | @loaded vals words freqs size mp m h1 h2 h3 h4 =>
    simp only [Stream.ofSaved] at h4
    obtain ⟨d, _, h4⟩ := bind_ok.1 h4
    obtain ⟨b, hb, h4⟩ := bind_ok.1 h4
    cases h4
    have hmp := hm mp rfl
    refine ⟨fun s hs => ?_, hm⟩
    obtain ⟨s', h3, hb⟩ := bind_ok.1 hb
    cases hb
    rw [List.mem_singleton] at hs
    subst hs
    unfold StatDict.ofSeqs at h3
    obtain ⟨d, _, h3⟩ := bind_ok.1 h3
    cases h3
    exact hmp

theorem Admissible.sfin {E : Env F} (L : EnvLaws E) (SL : ScoreLaws E.ops) (N : FiniteLaws E.ops) {m0 m : Stream F} {vals : List Int} {calls : List Call} {r : Bool}
    (h : Admissible E.ops m0 vals calls r) (hm : ∀ mp, m0.minProb = some mp → E.ops.isFinite mp = true) (hr : run E m0 calls = .ok m) : SFin E.ops m := by
  obtain ⟨r0, cap, s1, s2, s3⟩ := h.start
  obtain ⟨i1, i2, i3⟩ := s1.inv
  exact SFin.run L SL N calls s2 i1 i2 (by rw [i3]; exact s3) (s1.sfin N hm) hr

theorem SFin.recomputeLoop {O : FloatOps F} {σ : IntVGram.Sched} {fr : List Int} {total : Int} :
    ∀ (seqs : List IntSeq) (t : Nat) (m : IntVGram F) (r : IntVGram F × Nat × Bool), SFin O m.toStream →
    IntVGram.recomputeLoop O σ fr total seqs t m = .ok r → SFin O r.1.toStream := by
  intro seqs
  induction seqs with
  | nil => intro t m r h hr; cases hr; exact h
  | cons seq seqs ih =>
    intro t m r h hr
    simp only [IntVGram.recomputeLoop] at hr
    obtain ⟨d, _, hr⟩ := bind_ok.1 hr
    obtain ⟨⟨d', out, n⟩, _, hr⟩ := bind_ok.1 hr
    obtain ⟨fs, _, hr⟩ := bind_ok.1 hr
    have h' := h.setDict d'
    have h2 : SFin O { m.toStream.setDict d' with coder := (m.coder.encode seq).1, freqs := fs } := ⟨h'.heap, h'.fin⟩
    split at hr
    · cases hr; exact h2
    · exact ih _ _ _ h2 hr

theorem SFin.recomputeFreqs {O : FloatOps F} {σ : IntVGram.Sched} {t : Nat} {m m' : IntVGram F} {seqs : List IntSeq}
    (h : SFin O m.toStream) (hr : IntVGram.recomputeFreqs O σ t m seqs = .ok m') : SFin O m'.toStream := by
  simp only [IntVGram.recomputeFreqs] at hr
  obtain ⟨⟨b, fr⟩, hb, hr⟩ := bind_ok.1 hr
  obtain ⟨⟨m2, t2, stop⟩, h2, hr⟩ := bind_ok.1 hr
  have h1 : SFin O ({ m.toStream with builder := b, freqs := List.replicate fr.length 0 } : Stream F) := ⟨h.heap.resultFreqs hb, h.fin⟩
  have h3 := SFin.recomputeLoop _ _ { m with builder := b, freqs := List.replicate fr.length 0 } _ h1 h2
  dsimp only at hr
  split at hr
  · cases hr; exact h3
  · cases hr; exact ⟨h3.heap, h3.fin⟩

theorem fit_sfin {E : Env F} (L : EnvLaws E) (SL : ScoreLaws E.ops) (N : FiniteLaws E.ops) {size iter : Int} {σ : IntVGram.Sched} {seqs : List IntSeq} {m : IntVGram F}
    (h1 : 1 ≤ size) (hcap : ((seen seqs.flatten).length : Int) ≤ size) (hσ : ∀ j, j < iter.toNat * seqs.length + seqs.length → σ.term j = false)
    (hf : (IntVGram.new E.ops size iter).fit E σ seqs = .ok (m, true)) : SFin E.ops m.toStream := by
  rw [C44_uninterrupted E σ (IntVGram.new E.ops size iter) seqs rfl (fun j hj => hσ j (by
    have : (IntVGram.new E.ops size iter).iterNum = iter := rfl
    rw [this] at hj
    omega))] at hf
  obtain ⟨s, hs, hf⟩ := bind_ok.1 hf
  obtain ⟨m2, h2, hf⟩ := bind_ok.1 hf
  have hst : SStart E.ops (Stream.new E.ops size) [] false size := .fresh h1
  obtain ⟨i1, i2, i3⟩ := hst.inv
  have hs' : SFin E.ops s := by
    refine SFin.run L SL N _ (rounds_legal seqs σ.rand _ 0 false) i1 i2 ?_ (SFin.new N size) hs
    have := seen_length_mono (rounds_accepted (seqs := seqs) σ.rand (IntVGram.new E.ops size iter).iterNum.toNat 0)
    rw [i3, List.nil_append]
    omega
  have h3 := SFin.recomputeFreqs (m := { IntVGram.new E.ops size iter with toStream := s, fitted := true }) hs' h2
  cases hf
  exact ⟨h3.heap, h3.fin⟩

theorem TextModel.sfin {E : Env F} (L : EnvLaws E) (SL : ScoreLaws E.ops) (N : FiniteLaws E.ops) {k : TokKind} {m : StringVGram F} {A : List Str} (h : TextModel E k m A) :
    SFin E.ops m.int.toStream := by
  induction h with
  | @fit size iter σ train m h1 h2 hcap hσ hf =>
    obtain ⟨seqs, hi, hcap', hl, _⟩ := textFit_int L SL h1 h2 hcap hσ hf
    exact fit_sfin L SL N h1 hcap' (by rw [hl]; exact hσ) hi
  | @transform m m' A σ texts outs h ht ih =>
    obtain ⟨T, hist, hi⟩ := h.inv L SL
    obtain ⟨n, m2, ws, outs', q1, _, _, _, q4, _⟩ := hi.transform (E := E) SL σ texts
    rw [ht] at q1
    cases q1
    rw [q4]
    exact ih

theorem TextModel.utf8 {E : Env F} {m : StringVGram F} {A : List Str} (h : TextModel E .char m A) : TokUtf8 m.tok ∧ m.tok.kind = .char := by
  induction h with
  | @fit size iter σ train m h1 h2 hcap hσ hf =>
    obtain ⟨⟨i, r⟩, _, hf⟩ := bind_ok.1 hf
    injection hf with hf
    subst hf
    exact TokUtf8.transformAll train (TokUtf8.new .char) (Or.inl rfl)
  | @transform m m' A σ texts outs h ht ih =>
    obtain ⟨⟨i, ids⟩, _, e5⟩ := bind_ok.1 ht
    obtain ⟨al, _, e6⟩ := bind_ok.1 e5
    obtain ⟨ss, _, e7⟩ := bind_ok.1 e6
    cases e7
    have := TokUtf8.transformAll (o := .rhsFirst) texts ih.1 (Or.inl ih.2)
    exact ⟨this.1, this.2.trans ih.2⟩

/-! ## The integers of a file -/

theorem _root_.VGram.Spec.IsInt.of_nonneg {i n : Int} (h0 : 0 ≤ i) (h1 : i ≤ n) (hn : n < 2 ^ 31) : IsInt i := by
  unfold IsInt
  omega

theorem sub_arr {i : Int} {l : List (Json F)} (h : Sub (.int i) (.arr l)) : ∃ y ∈ l, Sub (.int i) y := by
  cases h with
  | arr h1 h2 => exact ⟨_, h1, h2⟩

theorem sub_obj {i : Int} {l : List (Str × Json F)} (h : Sub (.int i) (.obj l)) : ∃ e ∈ l, Sub (.int i) e.2 := by
  cases h with
  | obj h1 h2 => exact ⟨_, h1, h2⟩

theorem sub_int {i k : Int} (h : Sub (F := F) (.int i) (.int k)) : i = k := by
  cases h
  rfl

theorem sub_pushed {i : Int} {l : List (Json F)} (h : Sub (.int i) (Json.ofPushed l)) : ∃ y ∈ l, Sub (.int i) y := by
  unfold Json.ofPushed at h
  split at h
  · cases h
  · exact sub_arr h

theorem sub_ints {i : Int} {w : IntSeq} (h : Sub (F := F) (.int i) (.arr (w.map .int))) : i ∈ w := by
  obtain ⟨y, hy, h⟩ := sub_arr h
  obtain ⟨k, hk, rfl⟩ := List.mem_map.1 hy
  rw [sub_int h]
  exact hk

theorem insertByCode_mem {p q : Int × Int} : ∀ {l : List (Int × Int)}, q ∈ Saver.insertByCode p l → q = p ∨ q ∈ l
  | [], h => by simpa [Saver.insertByCode] using h
  | r :: l, h => by
    unfold Saver.insertByCode at h
    split at h
    · simpa using h
    · rcases List.mem_cons.1 h with rfl | h
      · simp
      · rcases insertByCode_mem h with h | h <;> simp [h]

theorem sortByCode_mem {q : Int × Int} : ∀ {l : List (Int × Int)}, q ∈ Saver.sortByCode l → q ∈ l
  | [], h => by simp [Saver.sortByCode] at h
  | p :: l, h => by
    rcases insertByCode_mem h with rfl | h
    · simp
    · simp [sortByCode_mem h]

theorem alphabetLoop_ints {freqs : List Int} {c : SeqCoder} {tok : Option Tokenizer} : ∀ (ws : List IntSeq) {k : Nat} {js : List (Json F)},
    Saver.alphabetLoop freqs c tok k ws = .ok js → ∀ i, ∀ j ∈ js, Sub (.int i) j → i ∈ freqs ∨ ∃ w ∈ ws, i ∈ w := by
  intro ws
  induction ws with
  | nil => intro k js h i j hj; cases h; cases hj
  | cons w ws ih =>
    intro k js h i j hj hs
    simp only [Saver.alphabetLoop] at h
    obtain ⟨f, hf, h⟩ := bind_ok.1 h
    have hsplit : ∃ (text : List (Str × Json F)) (rest : List (Json F)), (∀ e ∈ text, ∃ t, e.2 = .str t) ∧ Saver.alphabetLoop freqs c tok (k + 1) ws = .ok rest ∧
        js = .obj ((Json.kFreq, .int f) :: text ++ [(Json.kVec, .arr (w.map .int))]) :: rest := by
      cases tok with
      | none =>
        obtain ⟨text, ht, h⟩ := bind_ok.1 h
        obtain ⟨rest, hr, h⟩ := bind_ok.1 h
        cases h
        cases ht
        exact ⟨[], rest, by simp, hr, rfl⟩
      | some t =>
        obtain ⟨x, _, h⟩ := bind_ok.1 h
        obtain ⟨text, ht, h⟩ := bind_ok.1 h
        obtain ⟨rest, hr, h⟩ := bind_ok.1 h
        cases h
        cases ht
        exact ⟨_, rest, by simp, hr, rfl⟩
    obtain ⟨text, rest, ht, hr, rfl⟩ := hsplit
    rcases List.mem_cons.1 hj with rfl | hj
    · obtain ⟨e, he, hs⟩ := sub_obj hs
      simp only [List.cons_append, List.mem_cons, List.mem_append, List.not_mem_nil, or_false] at he
      rcases he with rfl | he | rfl
      · rw [sub_int hs]
        exact Or.inl (List.mem_of_getElem? (rd_nat_ok.1 hf))
      · obtain ⟨t, ht⟩ := ht e he
        rw [ht] at hs
        cases hs
      · exact Or.inr ⟨w, by simp, sub_ints hs⟩
    · rcases ih hr i j hj hs with h | ⟨v, hv, h⟩
      · exact Or.inl h
      · exact Or.inr ⟨v, by simp [hv], h⟩

theorem baseInfo_ints {O : FloatOps F} {m : Stream F} {tok : Option Tokenizer} {more b : List (Str × Json F)} {d : IntDict} (hd : m.getDict = .ok d)
    (hmore : ∀ e ∈ more, ∃ v, e.2 = .bool v) (hb : Saver.baseInfo O m tok more = .ok b) (i : Int) (hs : Sub (.int i) (.obj b)) :
    i = m.size ∨ i ∈ m.freqs ∨ (∃ w ∈ d.seqs, i ∈ w) ∨ ∃ p ∈ m.coder.codeMap, i = p.1 := by
  simp only [Saver.baseInfo, hd, ok_bind] at hb
  cases hm : m.minProb with
  | none => rw [hm] at hb; cases hb
  | some mp =>
  rw [hm] at hb
  obtain ⟨_, e, hb⟩ := bind_ok.1 hb
  cases e
  obtain ⟨alpha, ha, hb⟩ := bind_ok.1 hb
  cases hb
  obtain ⟨e, he, hs⟩ := sub_obj hs
  simp only [List.cons_append, List.nil_append, List.mem_cons, List.mem_append, List.not_mem_nil, or_false] at he
  rcases he with rfl | rfl | he | rfl | rfl
  · obtain ⟨y, hy, hs⟩ := sub_pushed hs
    rcases alphabetLoop_ints _ ha i y hy hs with h | h
    · exact Or.inr (Or.inl h)
    · exact Or.inr (Or.inr (Or.inl h))
  · obtain ⟨y, hy, hs⟩ := sub_pushed hs
    obtain ⟨p, hp, rfl⟩ := List.mem_map.1 hy
    exact Or.inr (Or.inr (Or.inr ⟨p, sortByCode_mem hp, sub_int hs⟩))
  · obtain ⟨v, hv⟩ := hmore e he
    rw [hv] at hs
    cases hs
  · dsimp only [Json.ofNum] at hs
    split at hs <;> cases hs
  · exact Or.inl (sub_int hs)

/-- All integers of a file are `int`s if the symbols, the frequencies, the size and the number of different symbols are. -/
theorem _root_.VGram.StreamInv.ints {O : FloatOps F} {m : Stream F} {hist : List Int} (h : StreamInv m hist) (hd : m.dict ≠ .null) (hsize : IsInt m.size)
    (hf : ∀ f ∈ m.freqs, IsInt f) (hx : ∀ x ∈ hist, IsInt x) (hn : (seen hist).length < 2 ^ 31) {tok : Option Tokenizer} {more b : List (Str × Json F)}
    (hmore : ∀ e ∈ more, ∃ v, e.2 = .bool v) (hb : Saver.baseInfo O m tok more = .ok b) (i : Int) (hs : Sub (.int i) (.obj b)) : IsInt i := by
  obtain ⟨d, d1, d2⟩ := h.getDict hd
  rcases baseInfo_ints d1 hmore hb i hs with rfl | hi | ⟨w, hw, hi⟩ | ⟨p, hp, rfl⟩
  · exact hsize
  · exact hf i hi
  · obtain ⟨h1, h2⟩ := d2.symbols w hw i hi
    exact .of_nonneg h1 h2.le (by exact_mod_cast hn)
  · rw [SeqCoder.codeMap, h.coder.entries] at hp
    obtain ⟨q, hq, rfl⟩ := List.mem_map.1 hp
    exact hx _ (seen_mem.1 (List.fst_mem_of_mem_zipIdx hq))

theorem run_size {E : Env F} : ∀ (calls : List Call) {m m' : Stream F}, run E m calls = .ok m' → m'.size = m.size := by
  intro calls
  induction calls with
  | nil => intro m m' h; cases h; rfl
  | cons c cs ih =>
    intro m m' h
    simp only [Props.run] at h
    obtain ⟨m1, h1, h⟩ := bind_ok.1 h
    rw [ih h]
    cases c with
    | accept seq =>
      obtain ⟨b, _, h1⟩ := bind_ok.1 h1
      cases h1
      rfl
    | parse seq =>
      obtain ⟨⟨m2, ids⟩, h2, h1⟩ := bind_ok.1 h1
      cases h1
      simp only [Stream.parse] at h2
      obtain ⟨_, _, h2⟩ := bind_ok.1 h2
      obtain ⟨_, _, h2⟩ := bind_ok.1 h2
      obtain ⟨⟨d, o⟩, _, h2⟩ := bind_ok.1 h2
      cases h2
      exact (m.setDict_frame d).2.2.2.2.2.1
    | update =>
      simp only [call, Stream.updateDict] at h1
      split at h1
      · cases h1; rfl
      · obtain ⟨_, _, h1⟩ := bind_ok.1 h1
        obtain ⟨_, _, h1⟩ := bind_ok.1 h1
        cases h1
        rfl

theorem recomputeLoop_size {O : FloatOps F} {σ : IntVGram.Sched} {fr : List Int} {total : Int} :
    ∀ (seqs : List IntSeq) (t : Nat) (m : IntVGram F) (r : IntVGram F × Nat × Bool),
    IntVGram.recomputeLoop O σ fr total seqs t m = .ok r → r.1.size = m.size := by
  intro seqs
  induction seqs with
  | nil => intro t m r hr; cases hr; rfl
  | cons seq seqs ih =>
    intro t m r hr
    simp only [IntVGram.recomputeLoop] at hr
    obtain ⟨d, _, hr⟩ := bind_ok.1 hr
    obtain ⟨⟨d', out, n⟩, _, hr⟩ := bind_ok.1 hr
    obtain ⟨fs, _, hr⟩ := bind_ok.1 hr
    have h' := (m.toStream.setDict_frame d').2.2.2.2.2.1
    split at hr
    · cases hr; exact h'
    · exact (ih _ _ _ hr).trans h'

theorem flatten_length_le {α β : Type} {a : List (List α)} {b : List (List β)} (h : List.Forall₂ (fun x y => y.length ≤ x.length) a b) :
    b.flatten.length ≤ a.flatten.length := by
  induction h with
  | nil => simp
  | cons h _ ih =>
    simp only [List.flatten_cons, List.length_append]
    omega

/-- A fitted model: its size is the requested one and no frequency exceeds the number of symbols it was trained on. -/
theorem fit_counts {E : Env F} (L : EnvLaws E) (SL : ScoreLaws E.ops) {size iter : Int} {σ : IntVGram.Sched} {seqs : List IntSeq} {m : IntVGram F}
    (h1 : 1 ≤ size) (h2 : 1 ≤ iter) (hcap : ((seen seqs.flatten).length : Int) ≤ size)
    (hσ : ∀ j, j < iter.toNat * seqs.length + seqs.length → σ.term j = false)
    (hf : (IntVGram.new E.ops size iter).fit E σ seqs = .ok (m, true)) :
    m.size = size ∧ ∀ f ∈ m.freqs, 0 ≤ f ∧ f ≤ (seqs.flatten.length : Int) := by
  constructor
  · rw [C44_uninterrupted E σ (IntVGram.new E.ops size iter) seqs rfl (fun j hj => hσ j (by
      have : (IntVGram.new E.ops size iter).iterNum = iter := rfl
      rw [this] at hj
      omega))] at hf
    obtain ⟨s, hs, hf⟩ := bind_ok.1 hf
    obtain ⟨m2, h2, hf⟩ := bind_ok.1 hf
    cases hf
    have hz : s.size = size := run_size _ hs
    simp only [IntVGram.recomputeFreqs] at h2
    obtain ⟨⟨b, fr⟩, hb, h2⟩ := bind_ok.1 h2
    obtain ⟨⟨m3, t2, stop⟩, h3, h2⟩ := bind_ok.1 h2
    have := recomputeLoop_size _ _ _ _ h3
    dsimp only at h2 this
    split at h2
    · cases h2; exact this.trans hz
    · cases h2; exact this.trans hz
  · obtain ⟨s, ws, r1, r2, r3⟩ := C46_recomputed_freqs E L SL size iter h1 h2 σ seqs hcap hσ
    obtain ⟨s', ws', q1, q2, q3, _⟩ := C46_fit_iff_covered E L SL size iter h1 h2 σ seqs hcap hσ
    rw [r1] at q1
    cases q1
    rw [r2] at q2
    cases q2
    obtain ⟨m', b, prior, outs, e1, e2, e3, e4, e5, e6, e7, e8, e9⟩ := r3 (q3.1 ⟨m, hf⟩)
    rw [hf] at e1
    cases e1
    have hi : StreamInv s (accepted (rounds seqs σ.rand 0 iter.toNat)) := by
      obtain ⟨s', s1, s2, _⟩ := rounds_updated L SL σ.rand h1 (show 1 ≤ iter.toNat by omega) hcap
      rw [r1] at s1
      cases s1
      exact s2.inv
    have hne := fun w hw => (hi.alphabet_mem r2 w hw).1
    have hlen := flatten_length_le (e5.imp fun _ _ h => h.1.length_le hne)
    intro f hf
    obtain ⟨k, hk⟩ := List.mem_iff_getElem?.1 hf
    have hkl : k < ws.length := by
      rw [← e6]
      exact (List.getElem?_eq_some_iff.1 hk).1
    rw [e7 k hkl] at hk
    cases hk
    have := List.count_le_length (a := (k : Int)) (l := outs.flatten)
    omega

theorem seen_sublist {α : Type} [DecidableEq α] : ∀ l : List α, (seen l).Sublist l
  | [] => List.Sublist.refl _
  | x :: xs => by
    rw [seen]
    exact (List.filter_sublist.trans (seen_sublist xs)).cons_cons x

theorem fit_ints {E : Env F} (L : EnvLaws E) (SL : ScoreLaws E.ops) {size iter : Int} {σ : IntVGram.Sched} {seqs : List IntSeq} {m : IntVGram F}
    (h1 : 1 ≤ size) (h2 : 1 ≤ iter) (hcap : ((seen seqs.flatten).length : Int) ≤ size)
    (hσ : ∀ j, j < iter.toNat * seqs.length + seqs.length → σ.term j = false)
    (hf : (IntVGram.new E.ops size iter).fit E σ seqs = .ok (m, true)) (hsize : size < 2 ^ 31) (hx : ∀ x ∈ seqs.flatten, IsInt x)
    (hn : seqs.flatten.length < 2 ^ 31) {tok : Option Tokenizer} {more b : List (Str × Json F)} (hmore : ∀ e ∈ more, ∃ v, e.2 = .bool v)
    (hb : Saver.baseInfo E.ops m.toStream tok more = .ok b) (i : Int) (hs : Sub (.int i) (.obj b)) : IsInt i := by
  obtain ⟨hist, ht, he⟩ := (Ready.fit h1 h2 hcap hσ hf).total L SL
  obtain ⟨c1, c2⟩ := fit_counts L SL h1 h2 hcap hσ hf
  have hl := seen_length_mono fun x hx => (he x).2 hx
  have hseen := (seen_sublist seqs.flatten).length_le
  refine ht.inv.ints ht.dict ?_ (fun f hf => .of_nonneg (c2 f hf).1 (c2 f hf).2 (by omega)) (fun x hx' => hx x ((he x).2 hx')) (by omega) hmore hb i hs
  rw [c1]
  exact .of_nonneg (by omega) le_rfl hsize

theorem TextModel.ints {E : Env F} (L : EnvLaws E) (SL : ScoreLaws E.ops) {k : TokKind} {m : StringVGram F} {A : List Str} (h : TextModel E k m A)
    (hsize : m.int.size < 2 ^ 31) (hn : A.length < 2 ^ 31) :
    ∀ {tok : Option Tokenizer} {more b : List (Str × Json F)}, (∀ e ∈ more, ∃ v, e.2 = .bool v) →
    Saver.baseInfo E.ops m.int.toStream tok more = .ok b → ∀ i, Sub (.int i) (.obj b) → IsInt i := by
  induction h with
  | @fit size iter σ train m h1 h2 hcap hσ hf =>
    intro tok more b hmore hb i hs
    obtain ⟨seqs, hi, hcap', hl, hfl, _⟩ := textFit_int L SL h1 h2 hcap hσ hf
    have hσ' : ∀ j, j < iter.toNat * seqs.length + seqs.length → σ.term j = false := by rw [hl]; exact hσ
    have hsz := (fit_counts L SL h1 h2 hcap' hσ' hi).1
    refine fit_ints L SL h1 h2 hcap' hσ' hi (by rw [← hsz]; exact hsize) (fun x hx => ?_) (by rw [hfl, List.length_map]; exact hn) hmore hb i hs
    rw [hfl] at hx
    obtain ⟨t, ht, rfl⟩ := List.mem_map.1 hx
    have h3 := List.idxOf_lt_length_of_mem (seen_mem.2 ht)
    have h4 := (seen_sublist (train.map (tokensOf k)).flatten).length_le
    have h5 : EvalOrder.rhsFirst.first ≤ 1 := by decide
    unfold code
    exact .of_nonneg (n := ((train.map (tokensOf k)).flatten.length : Int)) (by omega) (by omega) (by omega)
  | @transform m m' A σ texts outs h ht ih =>
    obtain ⟨T, hist, hi⟩ := h.inv L SL
    obtain ⟨n, m2, ws, outs', q1, _, _, _, q4, _⟩ := hi.transform (E := E) SL σ texts
    rw [ht] at q1
    cases q1
    rw [q4] at hsize ⊢
    exact ih hsize hn

theorem _root_.VGram.Spec.Ints64.of_ints {j : Json F} (h : ∀ i, Sub (.int i) j → IsInt i) : Ints64 j := by
  intro i hi
  have := h i hi
  unfold IsInt at this
  omega

/-! ## C80 -/

/-- C80: the probability stored with a model is a finite number after any admissible history of a fresh model, or of a loaded
model whose saved probability was finite.  So a file never has `null` in its place. -/
theorem C80_finite (E : Env F) (L : EnvLaws E) (SL : ScoreLaws E.ops) (N : FiniteLaws E.ops) (m0 : Stream F) (vals : List Int) (calls : List Call) (r : Bool)
    (h : Admissible E.ops m0 vals calls r) (h0 : ∀ mp, m0.minProb = some mp → E.ops.isFinite mp = true) :
    ∃ m, run E m0 calls = .ok m ∧ (∀ mp, m.minProb = some mp → E.ops.isFinite mp = true) ∧ ∀ s ∈ m.builder.stats, E.ops.isFinite s.minProb = true := by
  obtain ⟨m, h1, _⟩ := h.inv L SL
  have hs := h.sfin L SL N h0 h1
  exact ⟨m, h1, hs.fin, hs.heap⟩

/-- C80, stream models: a published model whose dictionary is sorted and has a frequency for every word can be saved to disk
without an exception; reading the bytes back and loading them gives a model with the same alphabet, frequencies, size, probability and codes that
answers every list of `parse` calls in the same way.  No number is changed by the conversions to `int`. -/
theorem C80_stream_file (E : Env F) (T : TextOps F) (L : EnvLaws E) (SL : ScoreLaws E.ops) (N : FiniteLaws E.ops) (TL : TextLaws E.ops T) (m0 : Stream F)
    (vals : List Int) (calls : List Call) (h : Admissible E.ops m0 vals calls true) (h0 : ∀ mp, m0.minProb = some mp → E.ops.isFinite mp = true)
    (hsize : IsInt m0.size) (hx : ∀ x ∈ vals ++ accepted calls, IsInt x) (hn : (vals ++ accepted calls).length < 2 ^ 31)
    (hc : m0.freqs.sum + (accepted calls).length < 2 ^ 31) :
    ∃ m d ws, run E m0 calls = .ok m ∧ m.getDict = .ok d ∧ m.alphabet = .ok ws ∧ (d.seqs.Pairwise (· < ·) → m.freqs.length = ws.length →
      ∃ j, Saver.saveStream E.ops m = .ok j ∧ (writeFile E.ops T j).done = true ∧
        ∃ j' m', readFile E.ops T (writeFile E.ops T j).text = .ok j' ∧ Loader.loadStream E.ops j' = .ok m' ∧ Narrow.loadStream E.ops j' = .ok m' ∧ m'.alphabet = .ok ws ∧
          m'.freqs = m.freqs ∧ m'.size = m.size ∧ m'.minProb = m.minProb ∧ m'.coder.codeMap = m.coder.codeMap ∧
          ∀ seqs, ∃ r, talk E.ops m seqs = .ok r ∧ talk E.ops m' seqs = .ok r) := by
  obtain ⟨m, d, ws, mp, h1, h2, h3, h4, h5⟩ := C51_load_save_partial E L SL m0 vals calls h
  refine ⟨m, d, ws, h1, h2, h3, fun a b => ?_⟩
  obtain ⟨j, m', k1, k2, k3, k4, k5, k6, k7, _, k8⟩ := h5 a b ((h.sfin L SL N h0 h1).fin mp h4)
  have hi : IntsFit j := by
    obtain ⟨m1, e1, inv, i2, _⟩ := h.inv L SL
    rw [h1] at e1
    cases e1
    obtain ⟨m1, e1, _, _, c1, _⟩ := C74_counters E L SL m0 vals calls true h
    rw [h1] at e1
    cases e1
    obtain ⟨b, e2, e3⟩ := bind_ok.1 k1
    cases e3
    have hseen := (seen_sublist (vals ++ accepted calls)).length_le
    exact fun i hi => inv.ints (i2 rfl) (by rw [run_size calls h1]; exact hsize) (fun f hf => .of_nonneg (c1 f hf).1 (c1 f hf).2 hc) hx (by omega)
      (by simp) e2 i hi
  have hn : NumsFit E.ops j := by
    obtain ⟨b, e2, e3⟩ := bind_ok.1 k1
    cases e3
    exact baseInfo_numsFit (by simp) e2
  have hd := C61_int_save T (Or.inl ⟨m, k1⟩) (.of_ints hi)
  exact ⟨j, k1, hd, j, m', C62_file_round_trip TL (.stream m k1) (.of_ints hi) hd, k2, (fitting_loads _ hi hn).1.trans k2, k3, k4, k5, by rw [k6, h4], k7, k8⟩

/-- C80, fitted models of sequences: the file written by `IntVGram::save` after any successful uninterrupted `fit` loads as a
stream model that answers like the fitted one. -/
theorem C80_fitted_file (E : Env F) (T : TextOps F) (L : EnvLaws E) (SL : ScoreLaws E.ops) (N : FiniteLaws E.ops) (TL : TextLaws E.ops T) (size iter : Int)
    (h1 : 1 ≤ size) (h2 : 1 ≤ iter) (σ : IntVGram.Sched) (seqs : List IntSeq) (m : IntVGram F) (hcap : ((seen seqs.flatten).length : Int) ≤ size)
    (hσ : ∀ j, j < iter.toNat * seqs.length + seqs.length → σ.term j = false) (hf : (IntVGram.new E.ops size iter).fit E σ seqs = .ok (m, true))
    (hsize : size < 2 ^ 31) (hx : ∀ x ∈ seqs.flatten, IsInt x) (hn : seqs.flatten.length < 2 ^ 31) :
    ∃ ws j, m.alphabet = .ok ws ∧ Saver.saveIntVGram E.ops m = .ok j ∧ (writeFile E.ops T j).done = true ∧
      ∃ j' m', readFile E.ops T (writeFile E.ops T j).text = .ok j' ∧ Loader.loadStream E.ops j' = .ok m' ∧ Narrow.loadStream E.ops j' = .ok m' ∧ m'.alphabet = .ok ws ∧
        m'.freqs = m.freqs ∧ m'.size = m.size ∧ m'.coder.codeMap = m.coder.codeMap ∧
        ∀ seqs, ∃ r, talk E.ops m.toStream seqs = .ok r ∧ talk E.ops m' seqs = .ok r := by
  obtain ⟨ws, mp, k1, k2, k3⟩ := C51_fitted E L SL size iter h1 h2 σ seqs m hcap hσ hf
  obtain ⟨j, m', q1, q2, q3, q4, q5, q6, q7⟩ := k3 ((fit_sfin L SL N h1 hcap hσ hf).fin mp k2)
  have hi : IntsFit j ∧ NumsFit E.ops j := by
    obtain ⟨b, e2, e3⟩ := bind_ok.1 q1
    cases e3
    exact ⟨fit_ints L SL h1 h2 hcap hσ hf hsize hx hn (by simp) e2, baseInfo_numsFit (by simp) e2⟩
  have hd := C61_int_save T (Or.inr ⟨m, q1⟩) (.of_ints hi.1)
  exact ⟨ws, j, k1, q1, hd, j, m', C62_file_round_trip TL (.int m q1) (.of_ints hi.1) hd, q2, (fitting_loads _ hi.1 hi.2).1.trans q2, q3, q4, q5, q6, q7⟩

/-- C80, fitted models of texts, character level: the file written after a successful `fit` and any `transform` calls is
complete, and the model loaded from its bytes has the same text alphabet, frequencies, size and flags and answers every sequence of `transform`
calls with the same texts. -/
theorem C80_text_file (E : Env F) (T : TextOps F) (L : EnvLaws E) (SL : ScoreLaws E.ops) (N : FiniteLaws E.ops) (TL : TextLaws E.ops T) (m : StringVGram F)
    (trained : List Str) (h : TextModel E .char m trained) (hsize : m.int.size < 2 ^ 31) (hn : trained.length < 2 ^ 31) :
    ∃ ws j, m.alphabet = .ok ws ∧ Saver.saveStringVGram E.ops m = .ok j ∧ (writeFile E.ops T j).done = true ∧
      ∃ j' m', readFile E.ops T (writeFile E.ops T j).text = .ok j' ∧ Loader.loadStringVGram E.ops j' = .ok m' ∧ Narrow.loadStringVGram E.ops j' = .ok m' ∧ m'.alphabet = .ok ws ∧
        m'.int.freqs = m.int.freqs ∧ m'.int.size = m.int.size ∧ m'.int.fitted = m.int.fitted ∧ m'.int.freqsComputed = m.int.freqsComputed ∧
        ∀ batches, ∃ r, textTalk E.ops m batches = .ok r ∧ textTalk E.ops m' batches = .ok r := by
  obtain ⟨mp, k1, k2⟩ := C52_load_save_partial E L SL m trained h
  obtain ⟨j, m', ws, q1, q2, q3, q4, q5, q6, q7, q8, q9⟩ := k2 ((h.sfin L SL N).fin mp k1)
  have hi : IntsFit j ∧ NumsFit E.ops j := by
    obtain ⟨b, e2, e3⟩ := bind_ok.1 q1
    cases e3
    exact ⟨h.ints L SL hsize hn (by simp [Saver.fittedInfo]) e2, baseInfo_numsFit (by simp [Saver.fittedInfo]) e2⟩
  have hd : (writeFile E.ops T j).done = true := by
    obtain ⟨ws', e1, e2⟩ := C61_text_save T q1 (.of_ints hi.1)
    rw [e2]
    intro w hw
    obtain ⟨xs, _, e3⟩ := bind_ok.1 e1
    injection e3 with e3
    subst e3
    obtain ⟨x, _, rfl⟩ := List.mem_map.1 hw
    exact h.utf8.1.decode x
  exact ⟨ws, j, q3, q1, hd, j, m', C62_file_round_trip TL (.text m q1) (.of_ints hi.1) hd, q2, (fitting_loads _ hi.1 hi.2).2.2.2.trans q2, q4, q5, q6, q7, q8, q9⟩

/-! ## Instances -/

/-- The hypotheses of the C80 theorems hold together: laws and conversions of one arithmetic, and a fitted model of texts. -/
example : Nonempty (EnvLaws quickEnv) ∧ Nonempty (ScoreLaws quickEnv.ops) ∧ FiniteLaws quickEnv.ops ∧ TextLaws quickEnv.ops ratText ∧
    ∃ m, TextModel quickEnv .char m (["A b".toList, "aba".toList, "b".toList].map (tokensOf .char)).flatten := by
  refine ⟨⟨Ext.envLaws _⟩, ⟨Ext.scoreLaws _⟩, Ext.finiteLaws _, quickText_laws, ?_⟩
  have h : ∃ m, (StringVGram.new quickEnv.ops 4 3 .char).fit quickEnv .rhsFirst (stopAt 100) ["A b".toList, "aba".toList, "b".toList] = .ok m := by
    cases hm : (StringVGram.new quickEnv.ops 4 3 .char).fit quickEnv .rhsFirst (stopAt 100) ["A b".toList, "aba".toList, "b".toList] with
    | ok m => exact ⟨m, rfl⟩
    | error e =>
      exfalso
      have : (do let _ ← (StringVGram.new quickEnv.ops 4 3 .char).fit quickEnv .rhsFirst (stopAt 100) ["A b".toList, "aba".toList, "b".toList]
                 pure () : M Unit) = .ok () := by decide +kernel
      rw [hm] at this
      cases this
  obtain ⟨m, hm⟩ := h
  exact ⟨m, .fit (size := 4) (iter := 3) (σ := stopAt 100) (by decide) (by decide) (by decide +kernel)
    (fun j hj => by
      have : j < 3 * 3 + 3 := hj
      simp only [stopAt]
      simp; omega) hm⟩

set_option synthInstance.maxSize 2000 in
/-- That model saved to a file of 889 bytes and loaded again. -/
example : (do
    let m ← (StringVGram.new quickEnv.ops 4 3 .char).fit quickEnv .rhsFirst (stopAt 100) ["A b".toList, "aba".toList, "b".toList]
    let j ← Saver.saveStringVGram quickEnv.ops m
    let w := writeFile quickEnv.ops ratText j
    let j' ← readFile quickEnv.ops ratText w.text
    let l ← Loader.loadStringVGram quickEnv.ops j'
    let r ← textTalk quickEnv.ops m [(stopAt 100, ["abxba".toList, "b".toList]), (stopAt 0, ["xab".toList, "a".toList])]
    let r' ← textTalk quickEnv.ops l [(stopAt 100, ["abxba".toList, "b".toList]), (stopAt 0, ["xab".toList, "a".toList])]
    pure (w.done, w.text.length, r, decide (r = r')) : M (Bool × Nat × List (List Str) × Bool)) =
    .ok (true, 889, [["ab b a".toList, "b".toList], ["ab".toList]], true) := by decide +kernel

set_option synthInstance.maxSize 2000 in
/-- C80_stream_file: a stream model saved to a file of 363 bytes and loaded again. -/
example : (do
    let m ← run cubeEnv (Stream.new cubeEnv.ops 3) [.accept [7, 8, 7, 8, 7, 8], .accept [7, 8, 7, 8, 7, 8],
      .accept [8, 7, 8, 7, 8, 7, 7, 7, 8, 8], .accept [8, 7, 8, 7, 8, 7, 7, 7, 8, 8], .update]
    let j ← Saver.saveStream cubeEnv.ops m
    let w := writeFile cubeEnv.ops ratText j
    let j' ← readFile cubeEnv.ops ratText w.text
    let l ← Loader.loadStream cubeEnv.ops j'
    let r ← talk cubeEnv.ops m [[8, 7, 7, 9, 8], [7]]
    let r' ← talk cubeEnv.ops l [[8, 7, 7, 9, 8], [7]]
    pure (w.done, w.text.length, r, decide (r = r')) : M (Bool × Nat × List (List Int × List IntSeq) × Bool)) =
    .ok (true, 363, [([3, 1], [[7], [7, 8], [8], [8, 7]]), ([0], [[7], [7, 8], [8], [8, 7]])], true) := by decide +kernel

end VGram.Props
