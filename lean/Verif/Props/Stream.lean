import Verif.Model.Persist
import Verif.Props.Coder
import Verif.Proofs.Stream

/-!
# The stream model (C37-C43)

Histories of `accept`, `parse` and `update_dict` calls on a fresh or a loaded model.
-/

namespace VGram.Props

open VGram Spec

variable {F : Type}

/-- A client's call on a stream model. -/
inductive Call where
  | accept (seq : IntSeq)
  | parse (seq : IntSeq)
  | update
  deriving DecidableEq

/-- Perform one call, ignoring its answer. -/
def call (E : Env F) (m : Stream F) : Call → M (Stream F)
  | .accept seq => m.accept E seq
  | .parse seq => do
    let (m', _) ← m.parse E.ops seq
    pure m'
  | .update => m.updateDict E.ops

/-- Perform the calls one after the other. -/
def run (E : Env F) (m : Stream F) : List Call → M (Stream F)
  | [] => .ok m
  | c :: cs => do
    let m' ← call E m c
    run E m' cs

/-- All symbols accepted, in order. -/
def accepted : List Call → List Int
  | [] => []
  | .accept seq :: cs => seq ++ accepted cs
  | _ :: cs => accepted cs

/-- `parse` is only called once a dictionary is published; `r`/`r'`: one is published before/afterwards. -/
inductive Legal : Bool → List Call → Bool → Prop
  | nil {r : Bool} : Legal r [] r
  | accept {r r' : Bool} {seq : IntSeq} {cs : List Call} (h : Legal r cs r') : Legal r (.accept seq :: cs) r'
  | parse {r' : Bool} {seq : IntSeq} {cs : List Call} (h : Legal true cs r') : Legal true (.parse seq :: cs) r'
  | update {r r' : Bool} {cs : List Call} (h : Legal true cs r') : Legal r (.update :: cs) r'

/-- Starting points: a fresh model of size `size`, or a model constructed from saved data with the
symbols `vals` and a proper dictionary.  Parameters: model, symbols known, dictionary published,
number of symbols it has room for. -/
inductive SStart (O : FloatOps F) : Stream F → List Int → Bool → Int → Prop
  | fresh {size : Int} (h : 1 ≤ size) : SStart O (Stream.new O size) [] false size
  | loaded {vals : List Int} {words : List IntSeq} {freqs : List Int} {size : Int} {mp : F} {m : Stream F} (h1 : vals.Nodup)
      (h2 : Proper words vals.length) (h3 : ∀ f ∈ freqs, 0 ≤ f)
      (h4 : Stream.ofSaved O (coderAfter [vals]) freqs words size mp = .ok m) : SStart O m vals true ((words.length : Int) + 1)

/-- An admissible history: the symbols fit into the model and nothing is parsed before a dictionary is published. -/
structure Admissible (O : FloatOps F) (m : Stream F) (vals : List Int) (calls : List Call) (r : Bool) : Prop where
  start : ∃ r0 cap, SStart O m vals r0 cap ∧ Legal r0 calls r ∧ ((seen (vals ++ accepted calls)).length : Int) ≤ cap

theorem seen_id {vals : List Int} (h : vals.Nodup) : seen vals = vals := by
  induction vals with
  | nil => rfl
  | cons x xs ih =>
    rw [List.nodup_cons] at h
    rw [seen, ih h.2, List.filter_eq_self.2]
    intro y hy
    simp only [ne_eq, decide_eq_true_eq]
    rintro rfl
    exact h.1 hy

theorem SStart.inv {O : FloatOps F} {m : Stream F} {vals : List Int} {r : Bool} {cap : Int} (h : SStart O m vals r cap) :
    StreamInv m vals ∧ (r = true → m.dict ≠ .null) ∧ m.builder.size + 1 = cap := by
  cases h with
  | fresh h =>
    refine ⟨⟨CInv.new, (Start.fresh (O := O) (size := cap - 1) (by omega)).tinv, ⟨empty_sorted.wf, by simp [Stream.new, IntDict.empty], by simp [Closed, Stream.new, IntDict.empty], fun _ => empty_sorted⟩, by simp [Stream.new],
      by simp [Stream.new], le_refl _, by simp [Stream.new]⟩, by simp, ?_⟩
    simp only [Stream.new, Builder.new]
    omega
  | @loaded vals words freqs size mp m h1 h2 h3 h4 =>
    simp only [Stream.ofSaved] at h4
    obtain ⟨d, hd, h4⟩ := bind_ok.1 h4
    obtain ⟨b, hb, h4⟩ := bind_ok.1 h4
    have ht := (Start.saved h2 hd (le_refl _) h3 hb).tinv
    have hs : Sorted d := by
      obtain ⟨d', e1, _, e2⟩ := init_sorted h2.nodup fun w hw e => h2.nonempty (e ▸ hw)
      rw [hd] at e1
      cases e1
      exact e2
    have hc : CInv (coderAfter [vals]) (seen vals) := by
      have := coderAfter_inv [vals]
      simpa using this
    have hsz : b.size = (words.length : Int) := by
      simp only [Builder.ofSaved] at hb
      obtain ⟨s, _, hb⟩ := bind_ok.1 hb
      cases hb
      simp only [IntDict.size]
      rw [init_seqs h2 hd, sortSeqs_length]
    cases h4
    refine ⟨⟨hc, by rw [seen_id h1]; exact ht, ⟨hs.wf, ?_, ?_, fun _ => hs⟩, by simp, h3, sumI_nonneg h3, fun _ => ⟨mp, rfl⟩⟩, by simp, by simp only; omega⟩
    · rw [seen_id h1]
      intro w hw
      rw [init_seqs h2 hd] at hw
      exact h2.symbols w ((sortSeqs_perm _).mem_iff.1 hw)
    · intro w hw x hx
      rw [init_seqs h2 hd, (sortSeqs_perm _).mem_iff] at hw ⊢
      have := h2.symbols w hw x hx
      exact h2.covers x this.1 this.2

theorem run_inv {E : Env F} (L : EnvLaws E) (SL : ScoreLaws E.ops) {calls : List Call} {r r' : Bool} (h : Legal r calls r') :
    ∀ {m : Stream F} {hist : List Int}, StreamInv m hist → (r = true → m.dict ≠ .null) →
      ((seen (hist ++ accepted calls)).length : Int) ≤ m.builder.size + 1 →
      ∃ m', run E m calls = .ok m' ∧ StreamInv m' (hist ++ accepted calls) ∧ (r' = true → m'.dict ≠ .null) ∧
        m'.builder.size = m.builder.size := by
  induction h with
  | nil =>
    intro m hist h hd _
    exact ⟨m, rfl, by simpa [accepted] using h, hd, rfl⟩
  | @accept r r' seq cs hl ih =>
    intro m hist h hd hcap
    simp only [accepted] at hcap ⊢
    rw [← List.append_assoc] at hcap ⊢
    obtain ⟨m1, a1, a2, a3⟩ := h.accept L SL seq (by
      have := seen_length_le (hist ++ seq) (accepted cs)
      omega)
    obtain ⟨m2, b1, b2, b3, b4⟩ := ih a2 (by rw [a3.dict]; exact hd) (by rw [a3.bsize]; exact hcap)
    exact ⟨m2, by simp only [run, call, a1, ok_bind, b1], b2, b3, b4.trans a3.bsize⟩
  | @parse r' seq cs hl ih =>
    intro m hist h hd hcap
    obtain ⟨d, d', ids, p1, p2, _, _, p3, _⟩ := h.parse SL (hd rfl) seq
    obtain ⟨f1, f2, f3, f4, f5, f6, f7, f8, f9, f10⟩ := m.setDict_frame d'
    obtain ⟨m2, b1, b2, b3, b4⟩ := ih p3 (by rw [f1]; exact hd) (by rw [f7]; exact hcap)
    exact ⟨m2, by simp only [run, call, p2, ok_bind, pure_M, b1], b2, b3, b4.trans f7⟩
  | @update r r' cs hl ih =>
    intro m hist h hd hcap
    obtain ⟨m1, u1, u2, u3, u4, _⟩ := h.updateDict (O := E.ops)
    obtain ⟨m2, b1, b2, b3, b4⟩ := ih u2 (by simp [u3]) (by rw [u4]; exact hcap)
    exact ⟨m2, by simp only [run, call, u1, ok_bind, b1], b2, b3, b4.trans u4⟩

theorem Admissible.inv {E : Env F} (L : EnvLaws E) (SL : ScoreLaws E.ops) {m0 : Stream F} {vals : List Int} {calls : List Call} {r : Bool}
    (h : Admissible E.ops m0 vals calls r) : ∃ m, run E m0 calls = .ok m ∧ StreamInv m (vals ++ accepted calls) ∧
      (r = true → m.dict ≠ .null) ∧ m.builder.size = m0.builder.size := by
  obtain ⟨r0, cap, h1, h2, h3⟩ := h.start
  obtain ⟨i1, i2, i3⟩ := h1.inv
  exact run_inv L SL h2 i1 i2 (by rw [i3]; exact h3)

/-! ## C37, C38 -/

/-- **C38.** After any admissible history that published a dictionary, `parse` succeeds on every
sequence, and the returned ids name words of `alphabet()` that spell the sequence without the symbols
never seen.  The words `alphabet()` had before the call keep their ids. -/
theorem C38_parse_total (E : Env F) (L : EnvLaws E) (SL : ScoreLaws E.ops) (m0 : Stream F) (vals : List Int) (calls : List Call)
    (h : Admissible E.ops m0 vals calls true) : ∃ m, run E m0 calls = .ok m ∧
      ∀ seq, ∃ m' ids ws ws', m.parse E.ops seq = .ok (m', ids) ∧ m.alphabet = .ok ws ∧ m'.alphabet = .ok ws' ∧ ws <+: ws' ∧
        Spells ws' ids (seq.filter fun x => decide (x ∈ vals ++ accepted calls)) := by
  obtain ⟨m, r1, inv, hd, _⟩ := h.inv L SL
  refine ⟨m, r1, fun seq => ?_⟩
  obtain ⟨d, d', ids, p1, p2, p3, p4, p5, p6, p7, p8, _⟩ := inv.parse SL (hd rfl) seq
  refine ⟨_, ids, _, _, p2, inv.alphabet p1 p3, p5.alphabet (Stream.getDict_setDict p1 d') p4, ?_, p8⟩
  obtain ⟨syms, g, _⟩ := p6
  rw [g]
  simp only [decodeWords, List.map_append]
  exact List.prefix_append _ _

/-- **C37.** For sequences over seen symbols the words concatenate to exactly the sequence. -/
theorem C37_parse_lossless (E : Env F) (L : EnvLaws E) (SL : ScoreLaws E.ops) (m0 : Stream F) (vals : List Int) (calls : List Call)
    (h : Admissible E.ops m0 vals calls true) : ∃ m, run E m0 calls = .ok m ∧
      ∀ seq, (∀ x ∈ seq, x ∈ vals ∨ x ∈ accepted calls) → ∃ m' ids ws', m.parse E.ops seq = .ok (m', ids) ∧ m'.alphabet = .ok ws' ∧
        Spells ws' ids seq := by
  obtain ⟨m, r1, k⟩ := C38_parse_total E L SL m0 vals calls h
  refine ⟨m, r1, fun seq hs => ?_⟩
  obtain ⟨m', ids, ws, ws', k1, _, k2, _, k3⟩ := k seq
  rw [List.filter_eq_self.2 fun x hx => by simpa using hs x hx] at k3
  exact ⟨m', ids, ws', k1, k2, k3⟩

/-- A history with two rebuilds, a repeated publication and a symbol arriving late. -/
def longRun : List Call := [.accept [5, 6], .update, .accept [5, 6, 5, 6], .update, .parse [6, 5, 9], .accept [7, 5, 6]]

example : Admissible quickEnv.ops (Stream.new quickEnv.ops 4) [] longRun true ∧
    (do let m ← run quickEnv (Stream.new quickEnv.ops 4) longRun
        let (m', ids) ← m.parse quickEnv.ops [6, 8, 5, 6, 7]
        let ws ← m'.alphabet
        pure (ids, ws) : M (List Int × List IntSeq)) = .ok ([2, 1, 3], [[5], [5, 6], [6], [7]]) :=
  ⟨⟨⟨false, 4, .fresh (by decide), .accept (.update (.accept (.update (.parse (.accept .nil))))), by decide⟩⟩, by decide +kernel⟩

/-! ## C39 -/

/-- A history without `update_dict` (and without the `parse` calls that are illegal then). -/
def onlyAccept (calls : List Call) : Prop := ∀ c ∈ calls, ∃ seq, c = .accept seq

theorem Legal.stays {calls : List Call} {r : Bool} (h : Legal true calls r) : r = true := by
  have : ∀ {r0 : Bool}, Legal r0 calls r → r0 = true → r = true := by
    clear h
    intro r0 h
    induction h with
    | nil => exact id
    | accept _ ih => exact ih
    | parse _ ih => exact fun _ => ih rfl
    | update _ ih => exact fun _ => ih rfl
  exact this h rfl

theorem Legal.onlyAccept {calls : List Call} {r : Bool} (h : Legal r calls false) : onlyAccept calls := by
  generalize hr : false = r' at h
  induction h with
  | nil => intro c hc; cases hc
  | accept _ ih =>
    intro c hc
    rcases List.mem_cons.1 hc with rfl | hc
    · exact ⟨_, rfl⟩
    · exact ih hr c hc
  | parse h _ => exact absurd (hr.trans h.stays) (by simp)
  | update h _ => exact absurd (hr.trans h.stays) (by simp)

theorem accept_dict {E : Env F} {m m' : Stream F} {seq : IntSeq} (h : m.accept E seq = .ok m') :
    m'.dict = m.dict ∧ m'.freqs = m.freqs ∧ m'.totalFreqs = m.totalFreqs ∧ m'.minProb = m.minProb ∧ m'.own = m.own ∧ m'.size = m.size := by
  simp only [Stream.accept] at h
  obtain ⟨b, _, h⟩ := bind_ok.1 h
  cases h
  exact ⟨rfl, rfl, rfl, rfl, rfl, rfl⟩

theorem onlyAccept_dict {E : Env F} : ∀ {calls : List Call} {m m' : Stream F}, onlyAccept calls → run E m calls = .ok m' →
    m'.dict = m.dict ∧ m'.freqs = m.freqs ∧ m'.totalFreqs = m.totalFreqs ∧ m'.minProb = m.minProb ∧ m'.own = m.own ∧ m'.size = m.size := by
  intro calls
  induction calls with
  | nil => intro m m' _ h; cases h; exact ⟨rfl, rfl, rfl, rfl, rfl, rfl⟩
  | cons c cs ih =>
    intro m m' ho h
    obtain ⟨seq, rfl⟩ := ho c (by simp)
    simp only [run] at h
    obtain ⟨m1, h1, h⟩ := bind_ok.1 h
    obtain ⟨a1, a2, a3, a4, a5, a6⟩ := accept_dict h1
    obtain ⟨b1, b2, b3, b4, b5, b6⟩ := ih (fun c hc => ho c (by simp [hc])) h
    exact ⟨b1.trans a1, b2.trans a2, b3.trans a3, b4.trans a4, b5.trans a5, b6.trans a6⟩

/-- **C39 is false**, for every history: until the first `update_dict` call, `parse` and `alphabet`
dereference the null pointer and `save` reads the uninitialised `min_probability_`. -/
theorem C39_before_update_false (E : Env F) (L : EnvLaws E) (SL : ScoreLaws E.ops) (size : Int) (calls : List Call)
    (h : Admissible E.ops (Stream.new E.ops size) [] calls false) :
    ∃ m, run E (Stream.new E.ops size) calls = .ok m ∧ (∀ seq, m.parse E.ops seq = .error .nullDeref) ∧ m.alphabet = .error .nullDeref ∧
      Saver.saveStream E.ops m = .error .uninit := by
  obtain ⟨m, r1, inv, _⟩ := h.inv L SL
  have ho : onlyAccept calls := by
    obtain ⟨r0, cap, h1, h2, _⟩ := h.start
    exact h2.onlyAccept
  obtain ⟨a1, _, _, a4, _⟩ := onlyAccept_dict ho r1
  have hd : m.dict = .null := a1
  have hm : m.minProb = none := a4
  obtain ⟨d, hda⟩ := alpha_ok inv.tinv
  refine ⟨m, r1, fun seq => ?_, ?_, ?_⟩
  · simp only [Stream.parse, hda, ok_bind, Stream.getDict, hd]
    rfl
  · simp only [Stream.alphabet, Stream.getDict, hd]
    rfl
  · simp only [Saver.saveStream, Saver.baseInfo, hm]
    rfl

/-! ## C42 -/

/-- **C42.** A second `update_dict` right after the first changes nothing. -/
theorem C42_update_idempotent (O : FloatOps F) (m m' : Stream F) (h : m.updateDict O = .ok m') : m'.updateDict O = .ok m' := by
  unfold Stream.updateDict at h
  split at h
  · next he =>
    cases h
    unfold Stream.updateDict
    rw [if_pos he]
  · obtain ⟨⟨b, fr⟩, h1, h⟩ := bind_ok.1 h
    obtain ⟨mp, _, h⟩ := bind_ok.1 h
    cases h
    have : b.resultIdx = m.builder.resultIdx := by
      simp only [Builder.resultFreqs] at h1
      obtain ⟨s, _, h1⟩ := bind_ok.1 h1
      cases h1
      rfl
    unfold Stream.updateDict
    rw [if_pos (by simp only [this])]

example : (do
    let m ← run quickEnv (Stream.new quickEnv.ops 4) [.accept [5, 6]]
    let m1 ← m.updateDict quickEnv.ops
    let m2 ← m1.updateDict quickEnv.ops
    pure (m.freqs, m1.freqs, m2.freqs) : M (List Int × List Int × List Int)) = .ok ([], [0, 0, 0], [0, 0, 0]) := by decide +kernel

/-! ## C40 -/

/-- What an effective `update_dict` does to `freqs()`: it appends one entry per word. -/
theorem C40_update_appends (E : Env F) (L : EnvLaws E) (SL : ScoreLaws E.ops) (m0 : Stream F) (vals : List Int) (calls : List Call) (r : Bool)
    (h : Admissible E.ops m0 vals calls r) : ∃ m m' ws, run E m0 calls = .ok m ∧ m.updateDict E.ops = .ok m' ∧ m'.alphabet = .ok ws ∧
      (m' = m ∨ ∃ fresh, m'.freqs = m.freqs ++ fresh ∧ fresh.length = ws.length ∧ ∀ f ∈ fresh, 0 ≤ f) := by
  obtain ⟨m, r1, inv, _⟩ := h.inv L SL
  obtain ⟨m', u1, u2, u3, _, _, _, _, _, u9, u10⟩ := inv.updateDict (O := E.ops)
  obtain ⟨d, d1, d2⟩ := u2.getDict (by simp [u3])
  refine ⟨m, m', _, r1, u1, u2.alphabet d1 d2, ?_⟩
  by_cases he : m.dict = .stat m.builder.resultIdx
  · exact Or.inl (u9 he)
  · obtain ⟨s, s1, s2, s3, _, s5⟩ := u10 he
    refine Or.inr ⟨_, s2, ?_, fun f hf => u2.freqs f (by rw [s2]; exact List.mem_append_right _ hf)⟩
    have hs := inv.tinv.heap s (List.mem_of_getElem? s1)
    have hlt := inv.tinv.resultIdx_lt
    have hd : d = s.dict := by
      simp only [Stream.getDict, u3] at d1
      obtain ⟨t, t1, d1⟩ := bind_ok.1 d1
      rw [rd_nat_ok, s5, List.getElem?_set_self hlt] at t1
      cases t1
      cases d1
      rfl
    subst hd
    have := hs.short
    rw [padTo_length]
    simp only [decodeWords, List.length_map, StatDict.size, IntDict.size]
    omega

/-- C40, the part that holds: the first `update_dict` of a fresh model aligns `freqs()` with
`alphabet()`.  Missing: later `update_dict` calls (they append), and `accept` calls afterwards (they may
add words while `freqs()` stays as it is). -/
theorem C40_first_update_partial (E : Env F) (L : EnvLaws E) (SL : ScoreLaws E.ops) (size : Int) (calls : List Call)
    (h : Admissible E.ops (Stream.new E.ops size) [] calls false) : ∃ m m' ws, run E (Stream.new E.ops size) calls = .ok m ∧
      m.updateDict E.ops = .ok m' ∧ m'.alphabet = .ok ws ∧ m'.freqs.length = ws.length ∧ ∀ f ∈ m'.freqs, 0 ≤ f := by
  obtain ⟨m, m', ws, h1, h2, h3, h4⟩ := C40_update_appends E L SL _ _ calls false h
  obtain ⟨_, _, _, hl, _⟩ := h.start
  obtain ⟨a1, a2, _⟩ := onlyAccept_dict hl.onlyAccept h1
  refine ⟨m, m', ws, h1, h2, h3, ?_⟩
  rcases h4 with rfl | ⟨fresh, k1, k2, k3⟩
  · have := C42_update_idempotent E.ops m' m' h2
    exfalso
    unfold Stream.alphabet Stream.getDict at h3
    rw [show m'.dict = .null from a1] at h3
    cases h3
  · rw [show m.freqs = [] from a2, List.nil_append] at k1
    rw [k1]
    exact ⟨k2, k3⟩

/-- **C40 is false** for every loaded model with at least one word: the first `update_dict` leaves more
entries in `freqs()` than words in `alphabet()`. -/
theorem C40_loaded_false (E : Env F) (L : EnvLaws E) (SL : ScoreLaws E.ops) (vals : List Int) (words : List IntSeq) (freqs : List Int)
    (size : Int) (mp : F) (m : Stream F) (h1 : vals.Nodup) (h2 : Proper words vals.length) (h3 : ∀ f ∈ freqs, 0 ≤ f)
    (h4 : Stream.ofSaved E.ops (coderAfter [vals]) freqs words size mp = .ok m) (hne : freqs ≠ []) :
    ∃ m' ws, m.updateDict E.ops = .ok m' ∧ m'.alphabet = .ok ws ∧ ws.length < m'.freqs.length := by
  have hs := SStart.loaded h1 h2 h3 h4
  have hadm : Admissible E.ops m vals [] true := ⟨⟨true, _, hs, .nil, by
    have := hs.inv.1.tinv.alpha
    obtain ⟨s, s1, s2, s3⟩ := hs.inv.1.tinv.cur
    have hv : vals.length ≤ words.length := by
      have : (List.range vals.length).map (fun i : Nat => [(i : Int)]) ⊆ words := by
        intro w hw
        obtain ⟨i, hi, rfl⟩ := List.mem_map.1 hw
        rw [List.mem_range] at hi
        exact h2.covers _ (by omega) (by omega)
      have hnd : ((List.range vals.length).map (fun i : Nat => [(i : Int)])).Nodup :=
        List.Nodup.map (fun a b e => by simpa using e) List.nodup_range
      have := (List.subperm_of_subset hnd this).length_le
      simpa using this
    simp only [accepted, List.append_nil]
    rw [seen_id h1]
    omega⟩⟩
  obtain ⟨m1, m', ws, r1, u, a, h⟩ := C40_update_appends E L SL m vals [] true hadm
  cases r1
  refine ⟨m', ws, u, a, ?_⟩
  have hown : m.dict = .own ∧ m.freqs = freqs := by
    simp only [Stream.ofSaved] at h4
    obtain ⟨d, hd, h4⟩ := bind_ok.1 h4
    obtain ⟨b, hb, h4⟩ := bind_ok.1 h4
    cases h4
    exact ⟨rfl, rfl⟩
  rcases h with rfl | ⟨fresh, k1, k2, _⟩
  · exfalso
    unfold Stream.updateDict at u
    rw [if_neg (by simp [hown.1])] at u
    obtain ⟨⟨b, fr⟩, _, u⟩ := bind_ok.1 u
    obtain ⟨_, _, u⟩ := bind_ok.1 u
    injection u with u
    have := congrArg Stream.dict u
    rw [hown.1] at this
    cases this
  · have : 0 < freqs.length := List.length_pos_iff.2 hne
    rw [k1, hown.2, List.length_append]
    omega

/-- Also on a fresh model: after the second publication there are six entries for three words. -/
example : (do
    let m ← run quickEnv (Stream.new quickEnv.ops 4) [.accept [5, 6], .update, .accept [5, 6, 5, 6], .update]
    let ws ← m.alphabet
    pure (m.freqs, ws) : M (List Int × List IntSeq)) = .ok ([0, 0, 0, 0, 0, 0], [[5], [5, 6], [6]]) := by decide +kernel

example : (do
    let m ← run ratEnv (Stream.new ratEnv.ops 4) [.accept [5, 6, 5], .update]
    let ws ← m.alphabet
    pure (m.freqs, ws) : M (List Int × List IntSeq)) = .ok ([2, 1], [[5], [6]]) := by decide +kernel

/-! ## C41 -/

/-- The `alphabet` entry of a saved model: one object per word with its codes and frequency. -/
def entries (words : List IntSeq) (freqs : List Int) : List (Json F) :=
  List.zipWith (fun w f => .obj [(Json.kFreq, .int f), (Json.kVec, .arr (w.map .int))]) words freqs

theorem alphabetLoop_none (coder : SeqCoder) (freqs : List Int) : ∀ (words : List IntSeq) (i : Nat), 
    Saver.alphabetLoop (F := F) freqs coder none i words =
      if words = [] ∨ i + words.length ≤ freqs.length then .ok (entries words (freqs.drop i)) else .error .oob := by
  intro words
  induction words with
  | nil => intro i; simp [Saver.alphabetLoop, entries]
  | cons w ws ih =>
    intro i
    simp only [Saver.alphabetLoop]
    by_cases hi : i < freqs.length
    · rw [rd_of_lt hi, ih]
      simp only [ok_bind, pure_M, reduceCtorEq, false_or, List.length_cons]
      by_cases hw : i + 1 + ws.length ≤ freqs.length
      · rw [if_pos (Or.inr hw), if_pos (by omega)]
        simp only [ok_bind, entries]
        rw [List.drop_eq_getElem_cons hi]
        rfl
      · by_cases hn : ws = []
        · subst hn
          simp at hw
          omega
        · rw [if_neg (by simp [hn]; omega), if_neg (by omega)]
          rfl
    · rw [show rd freqs (i : Int) = .error .oob by rw [rd_nat, List.getElem?_eq_none (by omega)]]
      rw [if_neg (by simp; omega)]
      rfl

theorem insertByCode_le {p : Int × Int} {l : List (Int × Int)} (h : ∀ q ∈ l, p.2 ≤ q.2) : Saver.insertByCode p l = p :: l := by
  cases l with
  | nil => rfl
  | cons q qs => simp only [Saver.insertByCode, if_pos (h q (by simp))]

theorem sortByCode_id {l : List (Int × Int)} (h : l.Pairwise fun p q => p.2 ≤ q.2) : Saver.sortByCode l = l := by
  induction l with
  | nil => rfl
  | cons p l ih =>
    rw [List.pairwise_cons] at h
    rw [Saver.sortByCode, ih h.2, insertByCode_le h.1]

theorem coderJson_eq {c : SeqCoder} {vals : List Int} (h : CInv c vals) : Saver.coderJson (F := F) c = .ofPushed (vals.map .int) := by
  have hs : Saver.sortByCode c.codeMap = c.codeMap := by
    apply sortByCode_id
    rw [SeqCoder.codeMap, h.entries, List.pairwise_map]
    have : ∀ (l : List Int) (k : Nat), (l.zipIdx k).Pairwise fun p q => (p.2 : Int) ≤ (q.2 : Int) := by
      intro l
      induction l with
      | nil => intro k; simp
      | cons x xs ih =>
        intro k
        rw [List.zipIdx_cons, List.pairwise_cons]
        refine ⟨?_, ih _⟩
        rintro ⟨y, j⟩ hy
        have := (List.mem_zipIdx hy).1
        simp only
        omega
    exact this vals 0
  rw [Saver.coderJson, hs, SeqCoder.codeMap, h.entries, List.map_map]
  congr 1
  conv_rhs => rw [← List.zipIdx_map_fst 0 vals, List.map_map]
  rfl

/-- C41, exactly: after any admissible history that published a dictionary, `save` succeeds if and only if
`freqs()` is at least as long as `alphabet()`, and then it writes one entry per word with the frequency of
the same index; otherwise it reads out of bounds.  Missing for C41: `freqs()` can be shorter. -/
theorem C41_save_exact_partial (E : Env F) (L : EnvLaws E) (SL : ScoreLaws E.ops) (m0 : Stream F) (vals : List Int) (calls : List Call)
    (h : Admissible E.ops m0 vals calls true) : ∃ m d ws mp, run E m0 calls = .ok m ∧ m.getDict = .ok d ∧ m.alphabet = .ok ws ∧
      ws.length = d.seqs.length ∧ m.minProb = some mp ∧
      (ws.length ≤ m.freqs.length → Saver.saveStream E.ops m = .ok (.obj [(Json.kAlphabet, .ofPushed (entries d.seqs m.freqs)),
        (Json.kCoder, .ofPushed ((seen (vals ++ accepted calls)).map .int)), (Json.kMinProb, Json.ofNum E.ops mp), (Json.kSize, .int m.size)])) ∧
      (m.freqs.length < ws.length → Saver.saveStream E.ops m = .error .oob) := by
  obtain ⟨m, r1, inv, hd, _⟩ := h.inv L SL
  obtain ⟨d, d1, d2⟩ := inv.getDict (hd rfl)
  obtain ⟨mp, hmp⟩ := inv.prob (hd rfl)
  have hl : (decodeWords (vals ++ accepted calls) d.seqs).length = d.seqs.length := by simp [decodeWords]
  refine ⟨m, d, _, mp, r1, d1, inv.alphabet d1 d2, hl, hmp, ?_, ?_⟩
  · rw [hl]
    intro hle
    simp only [Saver.saveStream, Saver.baseInfo, hmp, pure_M, ok_bind, d1, alphabetLoop_none]
    rw [if_pos (Or.inr (by omega)), coderJson_eq inv.coder]
    rfl
  · rw [hl]
    intro hlt
    simp only [Saver.saveStream, Saver.baseInfo, hmp, pure_M, ok_bind, d1, alphabetLoop_none]
    rw [if_neg (by
      rintro (e | e)
      · rw [e] at hlt; simp at hlt
      · omega)]
    rfl

/-- C41, the part that holds: `save` right after an `update_dict` call that changed the published
dictionary succeeds.  Missing: `save` after further `accept` or `parse` calls. -/
theorem C41_save_after_update_partial (E : Env F) (L : EnvLaws E) (SL : ScoreLaws E.ops) (m0 : Stream F) (vals : List Int) (calls : List Call)
    (r : Bool) (h : Admissible E.ops m0 vals calls r) : ∃ m m', run E m0 calls = .ok m ∧ m.updateDict E.ops = .ok m' ∧
      (m' ≠ m → ∃ j, Saver.saveStream E.ops m' = .ok j) := by
  obtain ⟨m, m', ws, h1, h2, h3, h4⟩ := C40_update_appends E L SL m0 vals calls r h
  refine ⟨m, m', h1, h2, fun hne => ?_⟩
  obtain ⟨m1, r1, inv, _⟩ := h.inv L SL
  rw [h1] at r1
  cases r1
  obtain ⟨m2, u1, u2, u3, _⟩ := inv.updateDict (O := E.ops)
  rw [h2] at u1
  cases u1
  obtain ⟨d, d1, d2⟩ := u2.getDict (by simp [u3])
  obtain ⟨mp, hmp⟩ := u2.prob (by simp [u3])
  have h3' := u2.alphabet d1 d2
  rw [h3] at h3'
  cases h3'
  rcases h4 with rfl | ⟨fresh, k1, k2, _⟩
  · exact absurd rfl hne
  · have hl : d.seqs.length ≤ m'.freqs.length := by
      rw [k1, List.length_append, k2]
      simp only [decodeWords, List.length_map]
      omega
    simp only [Saver.saveStream, Saver.baseInfo, hmp, pure_M, ok_bind, d1, alphabetLoop_none]
    rw [if_pos (Or.inr (by omega))]
    exact ⟨_, rfl⟩

/-- A history ending with an unsaved new symbol: size 4, accept `5 6`, update_dict, accept `7`. -/
def lateSymbol : List Call := [.accept [5, 6], .update, .accept [7]]

/-- **C41 is false**: after `update_dict`, an accepted new symbol enters the published dictionary (it is the
working one) but not `freqs()`; `save` reads past its end. -/
theorem C41_save_false : Admissible ratEnv.ops (Stream.new ratEnv.ops 4) [] lateSymbol true ∧
    (do let m ← run ratEnv (Stream.new ratEnv.ops 4) lateSymbol
        let ws ← m.alphabet
        pure (ws, m.freqs) : M (List IntSeq × List Int)) = .ok ([[5], [6], [7]], [1, 1]) ∧
    (do let m ← run ratEnv (Stream.new ratEnv.ops 4) lateSymbol
        let _ ← Saver.saveStream ratEnv.ops m
        pure () : M Unit) = .error .oob := by
  refine ⟨⟨⟨false, 4, .fresh (by decide), .accept (.update (.accept .nil)), by decide⟩⟩, by decide +kernel, by decide +kernel⟩

/-! ## C43 -/

/-- `alphabet()` has a one-symbol word for every seen symbol of the sequence. -/
def Shows (m : Stream F) (hist : List Int) (seq : IntSeq) : Prop :=
  ∀ ws, m.alphabet = .ok ws → ∀ x ∈ seq, x ∈ hist → [x] ∈ ws

/-- Every `parse` call of the history is on a sequence whose seen symbols are all words of `alphabet()` at that time. -/
def Covered (E : Env F) (m : Stream F) (hist : List Int) : List Call → Prop
  | [] => True
  | .parse seq :: cs => Shows m hist seq ∧ ∀ m', call E m (.parse seq) = .ok m' → Covered E m' hist cs
  | .accept seq :: cs => ∀ m', call E m (.accept seq) = .ok m' → Covered E m' (hist ++ seq) cs
  | .update :: cs => ∀ m', call E m .update = .ok m' → Covered E m' hist cs

/-- A history without `parse`. -/
theorem Covered.of_noParse {E : Env F} : ∀ (calls : List Call) {m : Stream F} {hist : List Int}, (∀ seq, Call.parse seq ∉ calls) → Covered E m hist calls := by
  intro calls
  induction calls with
  | nil => intros; trivial
  | cons c cs ih =>
    intro m hist h
    have h' : ∀ seq, Call.parse seq ∉ cs := fun seq hs => h seq (List.mem_cons_of_mem _ hs)
    cases c with
    | parse seq => exact absurd List.mem_cons_self (h seq)
    | accept seq => exact fun _ _ => ih h'
    | update => exact fun _ _ => ih h'

/-- The words are known to the dictionary if `alphabet()` shows them. -/
theorem Shows.knows {m : Stream F} {hist : List Int} (inv : StreamInv m hist) {d : IntDict} (d1 : m.getDict = .ok d)
    (d2 : DOk (seen hist).length d) {seq : IntSeq} (hk : Shows m hist seq) : Knows d.seqs (m.coder.encodeImm seq) := by
  intro k hkm
  obtain ⟨k1, k2⟩ := imm_range inv.coder seq k hkm
  rw [inv.coder.imm] at hkm
  obtain ⟨x, hx, rfl⟩ := List.mem_map.1 hkm
  rw [List.mem_filter, decide_eq_true_eq] at hx
  have hw := hk _ (inv.alphabet d1 d2) x hx.1 (seen_mem.1 hx.2)
  obtain ⟨w, hw1, hw2⟩ := List.mem_map.1 hw
  obtain ⟨c, rfl⟩ : ∃ c, w = [c] := by
    cases w with
    | nil => simp at hw2
    | cons c w =>
      cases w with
      | nil => exact ⟨c, rfl⟩
      | cons => simp at hw2
  simp only [List.map_cons, List.map_nil, List.cons.injEq, and_true] at hw2
  obtain ⟨c1, c2⟩ := d2.symbols _ hw1 c (by simp)
  have hc : (c.toNat : Int) = c := by omega
  have hlt : c.toNat < (seen hist).length := by omega
  rw [List.getElem?_eq_getElem hlt, Option.getD_some] at hw2
  have : (seen hist).idxOf x = c.toNat := by
    rw [← hw2]
    exact (seen_nodup _).idxOf_getElem _ hlt
  rw [this, hc]
  exact hw1

/-- Parsing such a sequence changes nothing while the dictionary is sorted. -/
theorem Shows.pure {O : FloatOps F} (SL : ScoreLaws O) {m : Stream F} {hist : List Int} (inv : StreamInv m hist) (hd : m.dict ≠ .null)
    (hs : AllSorted m) {seq : IntSeq} (hk : Shows m hist seq) : ∃ ids ws, m.alphabet = .ok ws ∧ m.parse O seq = .ok (m, ids) ∧
      Spells ws ids (seq.filter fun x => decide (x ∈ hist)) := by
  obtain ⟨d, d', ids, d1, p2, d2, p4, p5, p6, p7, p8, p9⟩ := inv.parse SL hd seq
  obtain rfl := p9 (hs.getDict d1) (hk.knows inv d1 d2)
  rw [Stream.setDict_self d1] at p2
  exact ⟨ids, _, inv.alphabet d1 d2, p2, p8⟩

theorem run_sorted {E : Env F} (L : EnvLaws E) (SL : ScoreLaws E.ops) : ∀ (calls : List Call) {r r' : Bool} {m m' : Stream F} {hist : List Int},
    Legal r calls r' → StreamInv m hist → (r = true → m.dict ≠ .null) → Covered E m hist calls →
    ((seen (hist ++ accepted calls)).length : Int) ≤ m.builder.size + 1 → AllSorted m → run E m calls = .ok m' → AllSorted m' := by
  intro calls
  induction calls with
  | nil => intro r r' m m' hist _ _ _ _ _ hs h; cases h; exact hs
  | cons c cs ih =>
    intro r r' m m' hist hl inv hd hn hcap hs h
    simp only [run] at h
    obtain ⟨m1, h1, h'⟩ := bind_ok.1 h
    cases c with
    | parse seq =>
      cases hl with
      | parse hl =>
        obtain ⟨hn, hn'⟩ := hn
        obtain ⟨ids, ws, _, p, _⟩ := hn.pure SL inv (hd rfl) hs
        have he : call E m (.parse seq) = .ok m := by simp only [call, p, ok_bind, pure_M]
        rw [he] at h1
        cases h1
        exact ih hl inv hd (hn' m he) hcap hs h'
    | accept seq =>
      cases hl with
      | accept hl =>
        have hn' := hn m1 h1
        simp only [accepted] at hcap
        rw [← List.append_assoc] at hcap
        obtain ⟨m2, a1, a2, a3⟩ := inv.accept L SL seq (by
          have := seen_length_le (hist ++ seq) (accepted cs)
          omega)
        rw [show call E m (.accept seq) = m.accept E seq from rfl, a1] at h1
        cases h1
        exact ih hl a2 (by rw [a3.dict]; exact hd) hn' (by rw [a3.bsize]; exact hcap) (hs.accept SL inv a2 a3) h'
    | update =>
      cases hl with
      | update hl =>
        have hn' := hn m1 h1
        obtain ⟨m2, u1, u2, u3, u4, _⟩ := inv.updateDict (O := E.ops)
        rw [show call E m .update = m.updateDict E.ops from rfl, u1] at h1
        cases h1
        exact ih hl u2 (by simp [u3]) hn' (by rw [u4]; exact hcap) (hs.updateDict u1) h'

theorem SStart.sorted {O : FloatOps F} {m : Stream F} {vals : List Int} {r : Bool} {cap : Int} (h : SStart O m vals r cap) : AllSorted m := by
  cases h with
  | fresh h =>
    refine ⟨empty_sorted, fun s hs => ?_⟩
    simp only [Stream.new, Builder.new, List.mem_singleton] at hs
    exact hs ▸ (Healthy.new _).sorted
  | loaded h1 h2 h3 h4 =>
    have ht := (SStart.loaded h1 h2 h3 h4).inv.1.tinv
    simp only [Stream.ofSaved] at h4
    obtain ⟨d, hd, h4⟩ := bind_ok.1 h4
    obtain ⟨b, hb, h4⟩ := bind_ok.1 h4
    have hs : Sorted d := by
      obtain ⟨d', e1, _, e2⟩ := init_sorted h2.nodup fun w hw e => h2.nonempty (e ▸ hw)
      rw [hd] at e1
      cases e1
      exact e2
    simp only [Builder.ofSaved] at hb
    obtain ⟨s, hs1, hb⟩ := bind_ok.1 hb
    cases hb
    cases h4
    refine ⟨hs, fun t htm => ?_⟩
    simp only [List.mem_singleton] at htm
    obtain ⟨t', t1, t2, _⟩ := ht.cur
    simp only [List.getElem?_cons_zero, Option.some.injEq] at t1
    rw [htm, t1]
    exact t2.sorted

theorem Admissible.sorted {E : Env F} (L : EnvLaws E) (SL : ScoreLaws E.ops) {m0 m : Stream F} {vals : List Int} {calls : List Call} {r : Bool}
    (h : Admissible E.ops m0 vals calls r) (hn : Covered E m0 vals calls) (hr : run E m0 calls = .ok m) : AllSorted m := by
  obtain ⟨r0, cap, s1, s2, s3⟩ := h.start
  obtain ⟨i1, i2, i3⟩ := s1.inv
  exact run_sorted L SL calls s2 i1 i2 hn (by rw [i3]; exact s3) s1.sorted hr

/-- C43, the part that holds: if all parsed sequences so far had only symbols shown by `alphabet()` at that time (or
never seen), then parsing such a sequence changes nothing at all.  Missing: sequences with a symbol that was accepted but is
not in the published dictionary. -/
theorem C43_parse_pure_partial (E : Env F) (L : EnvLaws E) (SL : ScoreLaws E.ops) (m0 : Stream F) (vals : List Int) (calls : List Call)
    (h : Admissible E.ops m0 vals calls true) (hn : Covered E m0 vals calls) : ∃ m ws, run E m0 calls = .ok m ∧ m.alphabet = .ok ws ∧
      ∀ seq, (∀ x ∈ seq, x ∈ vals ++ accepted calls → [x] ∈ ws) → ∃ ids, m.parse E.ops seq = .ok (m, ids) ∧
        Spells ws ids (seq.filter fun x => decide (x ∈ vals ++ accepted calls)) := by
  obtain ⟨m, r1, inv, hd, _⟩ := h.inv L SL
  obtain ⟨d, d1, d2⟩ := inv.getDict (hd rfl)
  refine ⟨m, _, r1, inv.alphabet d1 d2, fun seq hk => ?_⟩
  obtain ⟨ids, ws, e1, e2, e3⟩ := Shows.pure SL inv (hd rfl) (h.sorted L SL hn r1) (seq := seq) (by
    intro ws hws
    rw [inv.alphabet d1 d2] at hws
    cases hws
    exact hk)
  rw [inv.alphabet d1 d2] at e1
  cases e1
  exact ⟨ids, e2, e3⟩

/-- A history with parse calls that is covered: the model of size 4 learns 5 and 6, publishes, parses. -/
example : Covered ratEnv (Stream.new ratEnv.ops 4) [] [.accept [5, 6], .update, .parse [6, 5, 9], .parse [5]] := by
  have h1 : (do let m ← (Stream.new ratEnv.ops 4).accept ratEnv [5, 6]
                let m ← m.updateDict ratEnv.ops
                let ws ← m.alphabet
                let (m', _) ← m.parse ratEnv.ops [6, 5, 9]
                let ws' ← m'.alphabet
                pure (ws, ws') : M (List IntSeq × List IntSeq)) = .ok ([[5], [6]], [[5], [6]]) := by decide +kernel
  intro m1 e1 m2 e2
  simp only [call] at e1 e2
  simp only [e1, e2, ok_bind] at h1
  obtain ⟨ws, h2, h1⟩ := bind_ok.1 h1
  obtain ⟨⟨m3, ids⟩, h3, h1⟩ := bind_ok.1 h1
  obtain ⟨ws', h4, h1⟩ := bind_ok.1 h1
  simp only [pure_M, Except.ok.injEq, Prod.mk.injEq] at h1
  obtain ⟨rfl, rfl⟩ := h1
  refine ⟨?_, fun m4 e4 => ⟨?_, fun _ _ => trivial⟩⟩
  · intro ws hw
    rw [h2] at hw
    cases hw
    decide
  · simp only [call, h3, ok_bind, pure_M, Except.ok.injEq] at e4
    subst e4
    intro ws hw
    rw [h4] at hw
    cases hw
    decide

/-- A loaded model with the symbols 5 and 6. -/
def loaded56 : M (Stream (Ext Rat)) := Stream.ofSaved ratEnv.ops (coderAfter [[5, 6]]) [3, 2, 1] [[0], [0, 1], [1]] 4 (.fin 0)

/-- **C43 is false**: on a loaded model that has accepted the new symbol `7`, `parse` adds a word to the
published dictionary; `alphabet()` changes, and the returned id did not exist before. -/
theorem C43_parse_false : (∀ m, loaded56 = .ok m → Admissible ratEnv.ops m [5, 6] [.accept [7]] true) ∧
    (do let m ← loaded56
        let m ← m.accept ratEnv [7]
        let ws ← m.alphabet
        let (m', ids) ← m.parse ratEnv.ops [7, 5]
        let ws' ← m'.alphabet
        pure (ws, ids, ws') : M (List IntSeq × List Int × List IntSeq)) =
      .ok ([[5], [5, 6], [6]], [3, 0], [[5], [5, 6], [6], [7]]) := by
  refine ⟨fun m hm => ⟨⟨true, _, .loaded (by decide) ⟨by decide, by decide, ?_, ?_⟩ (by decide) hm, .accept .nil, by decide⟩⟩, by decide +kernel⟩
  · decide
  · intro x h0 h1
    have : x = 0 ∨ x = 1 := by simp at h1; omega
    rcases this with rfl | rfl <;> simp

end VGram.Props
