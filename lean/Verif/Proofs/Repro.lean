import Verif.Proofs.Gain
import Verif.Proofs.ExpandShape

/-! # Selections that do not depend on the order of the hash table and of equal scores -/

namespace VGram

open Spec

variable {F : Type}

theorem filter_split {α : Type} {R : α → α → Prop} {k : α → Bool} {l : List α} (hs : l.Pairwise R)
    (hb : ∀ a ∈ l, ∀ b ∈ l, k a = false → k b = true → ¬ R a b) : l = l.filter k ++ l.filter (fun a => !k a) := by
  induction l with
  | nil => rfl
  | cons a l ih =>
    rw [List.pairwise_cons] at hs
    have ih := ih hs.2 fun x hx y hy => hb x (by simp [hx]) y (by simp [hy])
    by_cases ha : k a = true
    · simp only [List.filter_cons, ha, if_true, Bool.not_true, Bool.false_eq_true, if_false, List.cons_append]
      rw [← ih]
    · have ha : k a = false := by simpa using ha
      have hno : l.filter k = [] := by
        rw [List.filter_eq_nil_iff]
        intro b hbm hk
        exact hb a (by simp) b (by simp [hbm]) ha hk (hs.1 b hbm)
      simp only [List.filter_cons, ha, Bool.false_eq_true, if_false, Bool.not_false, if_true]
      rw [hno] at ih ⊢
      rw [List.nil_append] at ih ⊢
      rw [← ih]

/-- Two cuts of lists that agree after `n` places stop at the same place. -/
theorem cut_same {α : Type} {neg : α → Bool} {c n : Nat} {K K' P taken rest taken' rest' : List α}
    (hk : K.length = n) (hk' : K'.length = n) (hc : n ≤ c) (e : taken ++ rest = K ++ P) (e' : taken' ++ rest' = K' ++ P)
    (hkn : ∀ a ∈ K, neg a = false) (hkn' : ∀ a ∈ K', neg a = false)
    (h1 : taken.length ≤ c) (h1' : taken'.length ≤ c)
    (h2 : ∀ a ∈ taken, neg a = false) (h2' : ∀ a ∈ taken', neg a = false)
    (h3 : rest = [] ∨ c ≤ taken.length ∨ ∃ a r, rest = a :: r ∧ neg a = true)
    (h3' : rest' = [] ∨ c ≤ taken'.length ∨ ∃ a r, rest' = a :: r ∧ neg a = true) :
    ∃ Q, taken = K ++ Q ∧ taken' = K' ++ Q := by
  have key : ∀ {K P taken rest : List α}, K.length = n → taken ++ rest = K ++ P → (∀ a ∈ K, neg a = false) →
      (rest = [] ∨ c ≤ taken.length ∨ ∃ a r, rest = a :: r ∧ neg a = true) → ∃ Q, taken = K ++ Q ∧ P = Q ++ rest := by
    intro K P taken rest hk e hkn h3
    rcases List.append_eq_append_iff.1 e with ⟨a, ha, hb⟩ | ⟨a, ha, hb⟩
    · cases a with
      | nil => exact ⟨[], by simpa using ha.symm, by simpa using hb.symm⟩
      | cons x a =>
        exfalso
        have hl : taken.length < n := by rw [← hk, ha]; simp
        rcases h3 with h3 | h3 | ⟨b, r, h3, hn⟩
        · rw [h3] at hb; simp at hb
        · omega
        · rw [h3] at hb
          simp only [List.cons_append, List.cons.injEq] at hb
          rw [hb.1] at hn
          rw [hkn x (by rw [ha]; simp)] at hn
          cases hn
    · exact ⟨a, ha, hb⟩
  obtain ⟨Q, q1, q2⟩ := key hk e hkn h3
  obtain ⟨Q', q1', q2'⟩ := key hk' e' hkn' h3'
  refine ⟨Q, q1, ?_⟩
  have key2 : ∀ {K taken rest taken' rest' Q Q' : List α}, K.length = n → taken = K ++ Q → taken'.length = n + Q'.length →
      Q ++ rest = Q' ++ rest' → taken'.length ≤ c → (∀ a ∈ Q', neg a = false) →
      (rest = [] ∨ c ≤ taken.length ∨ ∃ a r, rest = a :: r ∧ neg a = true) → Q'.length ≤ Q.length := by
    intro K taken rest taken' rest' Q Q' hk ht ht' hq hc' hn h3
    by_contra hlt
    rcases List.append_eq_append_iff.1 hq with ⟨a, ha, hb⟩ | ⟨a, ha, hb⟩
    · cases a with
      | nil => rw [ha] at hlt; simp at hlt
      | cons x a =>
        rcases h3 with h3 | h3 | ⟨b, r, h3, hneg⟩
        · rw [h3] at hb; simp at hb
        · rw [ht, List.length_append] at h3; omega
        · rw [h3] at hb
          simp only [List.cons_append, List.cons.injEq] at hb
          rw [hb.1, hn x (by rw [ha]; simp)] at hneg
          cases hneg
    · rw [ha] at hlt; simp at hlt
  have hq : Q ++ rest = Q' ++ rest' := by rw [← q2, ← q2']
  have l1 := key2 hk q1 (by rw [q1', List.length_append, hk']) hq h1' (fun a ha => h2' a (by rw [q1']; simp [ha])) h3
  have l2 := key2 hk' q1' (by rw [q1, List.length_append, hk]) hq.symm h1 (fun a ha => h2 a (by rw [q1]; simp [ha])) h3'
  rw [q1', (List.append_inj hq (by omega)).1]

theorem expMin_append (O : FloatOps F) (acc : Int) (a b : List (StatItem F)) (mp : F) :
    expMin O acc (a ++ b) mp = expMin O acc b (expMin O acc a mp) := by
  simp [expMin]

theorem expMin_known (O : FloatOps F) (acc : Int) (a : List (StatItem F)) (mp : F) (h : ∀ it ∈ a, it.first < 0) :
    expMin O acc a mp = mp := by
  induction a generalizing mp with
  | nil => rfl
  | cons x a ih =>
    have := h x (by simp)
    rw [expMin, List.foldl_cons, if_neg (by omega)]
    exact ih mp fun it hit => h it (by simp [hit])

/-- The text of a pair of ids. -/
def pairText (s : StatDict F) (k : Int × Int) : IntSeq := wordAt s k.1 ++ wordAt s k.2

/-- The score `expand` gives to a pair. -/
def pairScoreOf (E : Env F) (s : StatDict F) (e : (Int × Int) × Int) : M F :=
  StatDict.pairScore E e.2 e.2 (pairSum (fun k => k.1 == e.1.1) s.pairs - e.2) (pairSum (fun k => k.2 == e.1.2) s.pairs - e.2)
    (pairSum (fun _ => true) s.pairs - (pairSum (fun k => k.1 == e.1.1) s.pairs - e.2) - (pairSum (fun k => k.2 == e.1.2) s.pairs - e.2) - e.2)

/-- If no two candidates tie and none is spelled by two pairs, the words an expansion selects, their frequencies and the
minimal probability are the same for every order of the hash table and every way to sort equal scores, up to the order of the
words that were there before. -/
theorem expand_determined {E E' : Env F} (L : EnvLaws E) (L' : EnvLaws E') (ho : E'.ops = E.ops) (hg : E'.gammas = E.gammas)
    {s : StatDict F} (h : ExpOk s) {slots : Int} (h0 : 0 ≤ slots)
    (hsplit : ∀ e ∈ s.pairs, ∀ e' ∈ s.pairs, pairText s e.1 = pairText s e'.1 → pairText s e.1 ∉ s.dict.seqs → e = e')
    (hties : ∀ e ∈ s.pairs, ∀ e' ∈ s.pairs, e ≠ e' → pairText s e.1 ∉ s.dict.seqs → pairText s e'.1 ∉ s.dict.seqs →
      ∀ x x', pairScoreOf E s e = .ok x → pairScoreOf E s e' = .ok x' →
        E.ops.lt (E.ops.neg x) (E.ops.neg x') = true ∨ E.ops.lt (E.ops.neg x') (E.ops.neg x) = true) :
    ∃ (K K' P : List (IntSeq × Int)) (mp : F),
      s.expand E slots = .ok ((K ++ P).map (·.1), (K ++ P).map (·.2), mp) ∧
      s.expand E' slots = .ok ((K' ++ P).map (·.1), (K' ++ P).map (·.2), mp) ∧ K.Perm K' := by
  obtain ⟨ops, srt, ord, gam⟩ := E
  obtain ⟨ops', srt', ord', gam'⟩ := E'
  dsimp only at ho hg
  subst ho hg
  obtain ⟨taken, rest, e1, e2, e3, e4, e5, e6, e7, e8, e9⟩ := expand_shape L h slots
  obtain ⟨taken', rest', f1, f2, f3, f4, f5, f6, f7, f8, f9⟩ := expand_shape L' h slots
  dsimp only at *
  -- membership
  have hm : ∀ {l l' : List (StatItem F)} {N N' : F → Prop},
      (∀ it ∈ l, ItemIn s it ∧
        ((∃ n : Nat, n < s.dict.seqs.length ∧ it = knownItem ops' s n) ∨
        (0 ≤ it.first ∧ N it.score ∧ ((it.first, it.second), it.count) ∈ s.pairs ∧
          wordAt s it.first ++ wordAt s it.second ∉ s.dict.seqs ∧
          StatDict.pairScore ⟨ops', srt, ord, gam'⟩ it.count it.count (pairSum (fun k => k.1 == it.first) s.pairs - it.count)
            (pairSum (fun k => k.2 == it.second) s.pairs - it.count)
            (pairSum (fun _ => true) s.pairs - (pairSum (fun k => k.1 == it.first) s.pairs - it.count) -
              (pairSum (fun k => k.2 == it.second) s.pairs - it.count) - it.count) = .ok it.score))) →
      (∀ it ∈ l', ItemIn s it ∧
        ((∃ n : Nat, n < s.dict.seqs.length ∧ it = knownItem ops' s n) ∨
        (0 ≤ it.first ∧ N' it.score ∧ ((it.first, it.second), it.count) ∈ s.pairs ∧
          wordAt s it.first ++ wordAt s it.second ∉ s.dict.seqs ∧
          StatDict.pairScore ⟨ops', srt, ord, gam'⟩ it.count it.count (pairSum (fun k => k.1 == it.first) s.pairs - it.count)
            (pairSum (fun k => k.2 == it.second) s.pairs - it.count)
            (pairSum (fun _ => true) s.pairs - (pairSum (fun k => k.1 == it.first) s.pairs - it.count) -
              (pairSum (fun k => k.2 == it.second) s.pairs - it.count) - it.count) = .ok it.score))) →
      (∀ n : Nat, n < s.dict.seqs.length → knownItem ops' s n ∈ l') →
      (∀ e ∈ s.pairs, wordAt s e.1.1 ++ wordAt s e.1.2 ∈ l'.map (txt s)) → ∀ it ∈ l, it ∈ l' := by
    intro l l' N N' a a' b c it hit
    obtain ⟨⟨i1, i2, i3⟩, i4⟩ := a it hit
    rcases i4 with ⟨n, hn, rfl⟩ | ⟨g1, g2, g3, g4, g5⟩
    · exact b n hn
    · obtain ⟨jt, hj, ej⟩ := List.mem_map.1 (c _ g3)
      obtain ⟨_, j4⟩ := a' jt hj
      rcases j4 with ⟨n, hn, rfl⟩ | ⟨k1, k2, k3, k4, k5⟩
      · exfalso
        have : txt s (knownItem ops' s n) = s.dict.seqs[n] := by simp [txt, knownItem, wordAt, List.getElem?_eq_getElem hn]
        rw [this] at ej
        exact g4 (ej ▸ List.getElem_mem hn)
      · rw [txt, if_pos k1] at ej
        have := hsplit _ k3 _ g3 ej k4
        obtain ⟨a1, a2, a3, a4⟩ := it
        obtain ⟨b1, b2, b3, b4⟩ := jt
        simp only [Prod.mk.injEq] at this
        dsimp only at *
        obtain ⟨⟨rfl, rfl⟩, rfl⟩ := this
        rw [k5] at g5
        cases g5
        exact hj
  have m1 := hm e7 f7 f8 f9
  have m2 := hm f7 e7 e8 e9
  have hperm : (taken ++ rest).Perm (taken' ++ rest') :=
    (List.perm_ext_iff_of_nodup e3.of_map f3.of_map).2 fun it => ⟨m1 it, m2 it⟩
  -- the known words come first
  have hk : ∀ {l : List (StatItem F)} {N : F → Prop}, (∀ x, N x → ops'.lt (ops'.neg ops'.maxVal) (ops'.neg x) = true) →
      (∀ it ∈ l, (∃ n : Nat, n < s.dict.seqs.length ∧ it = knownItem ops' s n) ∨ (0 ≤ it.first ∧ N it.score)) →
      l.Pairwise (fun a b => ops'.lt (ops'.neg b.score) (ops'.neg a.score) = false) →
      l = l.filter (fun it => decide (it.first < 0)) ++ l.filter (fun it => !decide (it.first < 0)) := by
    intro l N hN a b
    refine filter_split b ?_
    intro x hx y hy kx ky hR
    simp only [decide_eq_false_iff_not, decide_eq_true_eq] at kx ky
    rcases a x hx with ⟨n, _, rfl⟩ | ⟨_, nx⟩
    · simp [knownItem] at kx
    · rcases a y hy with ⟨n, _, rfl⟩ | ⟨ny, _⟩
      · rw [knownItem] at hR
        dsimp only at hR
        rw [hN _ nx] at hR
        cases hR
      · omega
  have k1 := hk (N := L.Num) L.below (fun it hit => (e7 it hit).2.imp id fun g => ⟨g.1, g.2.1⟩) e2
  have k2 := hk (N := L'.Num) L'.below (fun it hit => (f7 it hit).2.imp id fun g => ⟨g.1, g.2.1⟩) f2
  -- the new words are sorted in one way
  have hP : (taken ++ rest).filter (fun it => !decide (it.first < 0)) = (taken' ++ rest').filter (fun it => !decide (it.first < 0)) := by
    refine List.Perm.eq_of_pairwise ?_ (e2.filter _) (f2.filter _) (hperm.filter _)
    intro a b ha hb hab hba
    obtain ⟨ha, pa⟩ := List.mem_filter.1 ha
    obtain ⟨hb, pb⟩ := List.mem_filter.1 hb
    have hb := m2 b hb
    simp only [Bool.not_eq_true', decide_eq_false_iff_not] at pa pb
    rcases (e7 a ha).2 with ⟨n, _, rfl⟩ | ⟨a1, _, a3, a4, a5⟩
    · simp [knownItem] at pa
    rcases (e7 b hb).2 with ⟨n, _, rfl⟩ | ⟨b1, _, b3, b4, b5⟩
    · simp [knownItem] at pb
    by_contra hne
    have hne' : ((a.first, a.second), a.count) ≠ ((b.first, b.second), b.count) := by
      intro e
      obtain ⟨c1, c2, c3, c4⟩ := a
      obtain ⟨d1, d2, d3, d4⟩ := b
      simp only [Prod.mk.injEq] at e
      dsimp only at *
      obtain ⟨⟨rfl, rfl⟩, rfl⟩ := e
      rw [b5] at a5
      cases a5
      exact hne rfl
    rcases hties _ a3 _ b3 hne' a4 b4 _ _ a5 b5 with t | t
    · rw [hba] at t; cases t
    · rw [hab] at t; cases t
  generalize hKe : (taken ++ rest).filter (fun it => decide (it.first < 0)) = K at k1
  generalize hKe' : (taken' ++ rest').filter (fun it => decide (it.first < 0)) = K' at k2
  rw [← hP] at k2
  generalize (taken ++ rest).filter (fun it => !decide (it.first < 0)) = P at k1 k2
  have hKK : K.Perm K' := by rw [← hKe, ← hKe']; exact hperm.filter _
  have hKknown : ∀ it ∈ K, ∃ n : Nat, n < s.dict.seqs.length ∧ it = knownItem ops' s n := by
    intro it hit
    rw [← hKe] at hit
    obtain ⟨hit, p⟩ := List.mem_filter.1 hit
    rcases (e7 it hit).2 with hn | ⟨g1, _⟩
    · exact hn
    · simp at p; omega
  have hKlen : K.length = s.dict.seqs.length := by
    have : K.Perm ((List.range s.dict.seqs.length).map (knownItem ops' s)) := by
      refine (List.perm_ext_iff_of_nodup ?_ ?_).2 fun it => ⟨fun hit => ?_, fun hit => ?_⟩
      · rw [← hKe]
        exact e3.of_map.filter _
      · refine List.Nodup.map ?_ List.nodup_range
        intro a b e
        simp only [knownItem, StatItem.mk.injEq] at e
        omega
      · obtain ⟨n, hn, rfl⟩ := hKknown it hit
        exact List.mem_map_of_mem (List.mem_range.2 hn)
      · obtain ⟨n, hn, rfl⟩ := List.mem_map.1 hit
        rw [← hKe]
        exact List.mem_filter.2 ⟨e8 n (List.mem_range.1 hn), by simp [knownItem]⟩
    rw [this.length_eq]
    simp
  have hneg : ∀ it ∈ K, ops'.lt it.score (ops'.ofInt 0) = false := by
    intro it hit
    obtain ⟨n, _, rfl⟩ := hKknown it hit
    exact L.top
  have hKneg : ∀ it ∈ K, it.first < 0 := by
    intro it hit
    obtain ⟨n, _, rfl⟩ := hKknown it hit
    simp [knownItem]
  obtain ⟨Q, q1, q2⟩ := cut_same (neg := fun it : StatItem F => ops'.lt it.score (ops'.ofInt 0))
    (c := (slots + (s.dict.seqs.length : Int)).toNat) (n := s.dict.seqs.length) (K := K) (K' := K') (P := P) hKlen
    (hKK.length_eq ▸ hKlen) (by omega) k1 k2 hneg (fun it hit => hneg it (hKK.mem_iff.2 hit)) e4 f4 e5 f5
    (e6.imp id (Or.imp (fun g => by omega) id)) (f6.imp id (Or.imp (fun g => by omega) id))
  refine ⟨K.map fun it => (txt s it, it.count), K'.map fun it => (txt s it, it.count), Q.map fun it => (txt s it, it.count),
    expMin ops' (pairSum (fun _ => true) s.pairs) taken s.minProb, ?_, ?_, hKK.map _⟩
  · rw [e1, q1]
    simp [Function.comp_def]
  · have : expMin ops' (pairSum (fun _ => true) s.pairs) taken s.minProb = expMin ops' (pairSum (fun _ => true) s.pairs) taken' s.minProb := by
      rw [q1, q2, expMin_append, expMin_append, expMin_known _ _ K _ hKneg,
        expMin_known _ _ K' _ fun it hit => hKneg it (hKK.mem_iff.2 hit)]
    rw [this, f1, q2]
    simp [Function.comp_def]

/-- Words without a prefix do not change the minimal probability. -/
theorem reduceLoop_roots (O : FloatOps F) {s : StatDict F} (hd : Sorted s.dict) (power : Int) (Q : List (StatItem F)) (mp m : F)
    (h2 : s.reduceLoop O power Q mp = .ok (Q.map (fun it => wordAt s it.second), Q.map (·.count), m)) : ∀ (K : List (StatItem F)),
    (∀ it ∈ K, ∃ (n : Nat) (w : IntSeq), it.second = (n : Int) ∧ s.dict.seqs[n]? = some w ∧ w.length = 1) →
    s.reduceLoop O power (K ++ Q) mp = .ok ((K ++ Q).map (fun it => wordAt s it.second), (K ++ Q).map (·.count), m) := by
  intro K
  induction K with
  | nil => intro _; exact h2
  | cons it K ih =>
    intro h1
    obtain ⟨n, w, e1, e2, e3⟩ := h1 it (by simp)
    have hn := (List.getElem?_eq_some_iff.1 e2).1
    obtain ⟨p, hp, hpar⟩ := hd.parent hn
    have hneg : p < 0 := by
      refine (isParent_root hd e2 hpar).2 fun v hv hpre => ?_
      have hv' := List.length_pos_iff.2 (hd.nonempty v hv)
      exact hpre.eq_of_length_le (by omega)
    have hg : s.dict.get it.second = .ok (wordAt s it.second) := get_wordAt (by omega) (by omega)
    simp only [List.cons_append, StatDict.reduceLoop]
    rw [hg, e1, hp]
    simp only [ok_bind, if_neg (by omega : ¬ 0 ≤ p), ih fun i hi => h1 i (by simp [hi]), pure_M, List.map_cons, e1]

theorem sumI_perm {l l' : List Int} (h : l.Perm l') : sumI l = sumI l' := by
  induction h with
  | nil => rfl
  | cons x _ ih => simp only [sumI_cons, ih]
  | swap x y l => simp only [sumI_cons]; omega
  | trans _ _ h1 h2 => rw [h1, h2]

/-- If no two longer words tie, the words a reduction selects, their frequencies and the minimal probability are the same for
every way to sort equal scores, up to the order of the one-symbol words. -/
theorem reduce_determined {E E' : Env F} (L : EnvLaws E) (L' : EnvLaws E') (SL : ScoreLaws E.ops) (ho : E'.ops = E.ops)
    {s : StatDict F} (h : Healthy s) {slots : Int} (h0 : 0 ≤ slots)
    (hties : ∀ ex items, s.unusedIds (List.range s.size) = .ok ex →
      s.statItemsLoop E.ops (E.ops.mul (s.codeLengthPerChar E.ops) (E.ops.ofInt s.totalChars)) ex (List.range s.symbolFreqs.length) = .ok items →
      ∀ a ∈ items, ∀ b ∈ items, a ≠ b → 1 < (wordAt s a.second).length → 1 < (wordAt s b.second).length →
        E.ops.lt (E.ops.neg a.score) (E.ops.neg b.score) = true ∨ E.ops.lt (E.ops.neg b.score) (E.ops.neg a.score) = true) :
    ∃ (K K' P : List (IntSeq × Int)) (mp : F),
      s.reduce E slots = .ok ((K ++ P).map (·.1), (K ++ P).map (·.2), mp) ∧
      s.reduce E' slots = .ok ((K' ++ P).map (·.1), (K' ++ P).map (·.2), mp) ∧ K.Perm K' := by
  obtain ⟨ops, srt, ord, gam⟩ := E
  obtain ⟨ops', srt', ord', gam'⟩ := E'
  dsimp only at ho
  subst ho
  obtain ⟨ex, u1, u2⟩ := h.unused
  have hex : ∀ (k : Nat) (x : Int), s.dict.seqs[k]? = some [x] → (k : Int) ∉ ex := by
    intro k x hk hmem
    have := ((u2 k _ hk).1 hmem).1
    simp at this
  have hun : ∀ (k : Nat) w, s.dict.seqs[k]? = some w → 1 < w.length → s.freq (k : Int) = 0 → (k : Int) ∈ ex :=
    fun k w hk hl hf => (u2 k w hk).2 ⟨hl, hf⟩
  obtain ⟨raw, i1, i2, i3, i4⟩ := statItemsLoop_spec L SL h (ex := ex)
    (cl := ops'.mul (s.codeLengthPerChar ops') (ops'.ofInt s.totalChars))
    (fun h1 h2 => codeLength_num L h1 h2)
    hex hun (List.range s.symbolFreqs.length) (by intro i hi; rw [← h.full]; simpa using hi) List.nodup_range
  obtain ⟨raw', j1, j2, _, _⟩ := statItemsLoop_spec L' SL h (ex := ex)
    (cl := ops'.mul (s.codeLengthPerChar ops') (ops'.ofInt s.totalChars))
    (fun h1 h2 => codeLength_num L' h1 h2)
    hex hun (List.range s.symbolFreqs.length) (by intro i hi; rw [← h.full]; simpa using hi) List.nodup_range
  dsimp only at *
  rw [i1] at j1
  cases j1
  have hties := hties ex raw u1 i1
  obtain ⟨sp, ss⟩ := L.sort raw (by
    intro a ha
    obtain ⟨n, w, _, _, r⟩ := i2 a ha
    by_cases hw : w.length = 1
    · exact Or.inl (r.single hw)
    · exact Or.inr (r.multi hw).1)
  obtain ⟨sp', ss'⟩ := L'.sort raw (by
    intro a ha
    obtain ⟨n, w, _, _, r⟩ := j2 a ha
    by_cases hw : w.length = 1
    · exact Or.inl (r.single hw)
    · exact Or.inr (r.multi hw).1)
  dsimp only at sp ss sp' ss'
  have hwd : ∀ {it n w}, RItem L s it n w → wordAt s it.second = w := by
    intro it n w r
    simp [wordAt, r.second, r.word]
  have hsplit : ∀ {l : List (StatItem F)}, l.Perm raw → l.Pairwise (fun a b => ops'.lt (ops'.neg b.score) (ops'.neg a.score) = false) →
      l = l.filter (fun it => decide ((wordAt s it.second).length = 1)) ++ l.filter (fun it => !decide ((wordAt s it.second).length = 1)) := by
    intro l hp hs
    refine filter_split hs ?_
    intro x hx y hy kx ky hR
    simp only [decide_eq_false_iff_not, decide_eq_true_eq] at kx ky
    obtain ⟨n, w, _, _, r⟩ := i2 x (hp.mem_iff.1 hx)
    obtain ⟨m, v, _, _, r'⟩ := i2 y (hp.mem_iff.1 hy)
    rw [hwd r] at kx
    rw [hwd r'] at ky
    rw [r'.single ky, L.below _ (r.multi kx).1] at hR
    cases hR
  have k1 := hsplit sp ss
  have k2 := hsplit sp' ss'
  have hpos : ∀ it ∈ raw, (wordAt s it.second).length ≠ 1 → 1 < (wordAt s it.second).length := by
    intro it hit hne
    obtain ⟨n, w, _, _, r⟩ := i2 it hit
    rw [hwd r] at hne ⊢
    have := List.length_pos_iff.2 (h.sorted.nonempty _ (List.mem_of_getElem? r.word))
    omega
  have hP : (srt raw).filter (fun it => !decide ((wordAt s it.second).length = 1)) =
      (srt' raw).filter (fun it => !decide ((wordAt s it.second).length = 1)) := by
    refine List.Perm.eq_of_pairwise ?_ (ss.filter _) (ss'.filter _) ((sp.trans sp'.symm).filter _)
    intro a b ha hb hab hba
    obtain ⟨ha, pa⟩ := List.mem_filter.1 ha
    obtain ⟨hb, pb⟩ := List.mem_filter.1 hb
    have ha := sp.mem_iff.1 ha
    have hb := sp'.mem_iff.1 hb
    simp only [Bool.not_eq_true', decide_eq_false_iff_not] at pa pb
    by_contra hne
    rcases hties a ha b hb hne (hpos a ha pa) (hpos b hb pb) with t | t
    · rw [hba] at t; cases t
    · rw [hab] at t; cases t
  rw [← hP] at k2
  have hKK : ((srt raw).filter (fun it => decide ((wordAt s it.second).length = 1))).Perm
      ((srt' raw).filter (fun it => decide ((wordAt s it.second).length = 1))) := (sp.trans sp'.symm).filter _
  have hKin : ∀ it ∈ (srt raw).filter (fun it => decide ((wordAt s it.second).length = 1)), it ∈ raw ∧ (wordAt s it.second).length = 1 := by
    intro it hit
    obtain ⟨a, b⟩ := List.mem_filter.1 hit
    exact ⟨sp.mem_iff.1 a, by simpa using b⟩
  have hPin : ∀ it ∈ (srt raw).filter (fun it => !decide ((wordAt s it.second).length = 1)), it ∈ raw := by
    intro it hit
    exact sp.mem_iff.1 (List.mem_filter.1 hit).1
  generalize (srt raw).filter (fun it => decide ((wordAt s it.second).length = 1)) = K at k1 hKK hKin
  generalize (srt' raw).filter (fun it => decide ((wordAt s it.second).length = 1)) = K' at k2 hKK
  generalize (srt raw).filter (fun it => !decide ((wordAt s it.second).length = 1)) = P at k1 k2 hPin
  -- all one-symbol words fit
  have hKlen : K.length ≤ Spec.prefixFree s.dict.seqs := by
    rw [h.prefixFree, singles]
    have hnd : K.Nodup := by
      have : (srt raw).Nodup := sp.nodup_iff.2 i3.of_map
      rw [k1] at this
      exact (List.nodup_append.1 this).1
    have : (K.map fun it => wordAt s it.second).Nodup := by
      rw [List.nodup_map_iff_inj_on hnd]
      intro a ha b hb hab
      obtain ⟨n, w, _, _, r⟩ := i2 a (hKin a ha).1
      obtain ⟨m, v, _, _, r'⟩ := i2 b (hKin b hb).1
      rw [hwd r, hwd r'] at hab
      subst hab
      have := index_unique h.sorted.nodup r.word r'.word
      subst this
      exact (List.nodup_map_iff_inj_on i3.of_map).1 i3 a (hKin a ha).1 b (hKin b hb).1 (by rw [r.second, r'.second])
    rw [← List.length_map (as := K) (f := fun it => wordAt s it.second)]
    refine (this.subperm ?_).length_le
    intro w hw
    obtain ⟨it, hit, rfl⟩ := List.mem_map.1 hw
    obtain ⟨n, w, _, _, r⟩ := i2 it (hKin it hit).1
    have := (hKin it hit).2
    rw [hwd r] at this ⊢
    exact List.mem_filter.2 ⟨List.mem_of_getElem? r.word, by simpa using this⟩
  have hc : ∀ {K : List (StatItem F)}, K.length ≤ Spec.prefixFree s.dict.seqs →
      (K ++ P).take (slots + (Spec.prefixFree s.dict.seqs : Int)).toNat =
        K ++ P.take ((slots + (Spec.prefixFree s.dict.seqs : Int)).toNat - K.length) := by
    intro K hK
    rw [List.take_append, List.take_of_length_le (by omega)]
  have hnn : ¬ slots + (Spec.prefixFree s.dict.seqs : Int) < 0 := by omega
  obtain ⟨Q, hQ⟩ : ∃ Q, Q = P.take ((slots + (Spec.prefixFree s.dict.seqs : Int)).toNat - K.length) := ⟨_, rfl⟩
  have hQin : ∀ it ∈ Q, it ∈ raw := fun it hit => hPin it (List.mem_of_mem_take (hQ ▸ hit))
  have hroot : ∀ it ∈ K, ∃ (n : Nat) (w : IntSeq), it.second = (n : Int) ∧ s.dict.seqs[n]? = some w ∧ w.length = 1 := by
    intro it hit
    obtain ⟨n, w, _, _, r⟩ := i2 it (hKin it hit).1
    have := (hKin it hit).2
    rw [hwd r] at this
    exact ⟨n, w, r.second, r.word, this⟩
  obtain ⟨m, hm⟩ := reduceLoop_eq ops' h.sorted (sumI ((K ++ Q).map (·.count))) Q
    (ops'.min (ops'.div (ops'.ofInt 1) (ops'.ofInt (s.size : Int))) s.minProb) (by
      intro it hit
      obtain ⟨n, w, _, _, r⟩ := i2 it (hQin it hit)
      have := (List.getElem?_eq_some_iff.1 r.word).1
      rw [r.second]
      omega)
  have hsum : sumI ((K ++ Q).map (·.count)) = sumI ((K' ++ Q).map (·.count)) := sumI_perm ((hKK.append_right Q).map _)
  refine ⟨K.map fun it => (wordAt s it.second, it.count), K'.map fun it => (wordAt s it.second, it.count),
    Q.map fun it => (wordAt s it.second, it.count), m, ?_, ?_, hKK.map _⟩
  · simp only [StatDict.reduce, StatDict.filterStatItems, h.roots, ok_bind, u1, StatDict.statItems, i1, pure_M, if_neg hnn]
    rw [k1, hc hKlen, ← hQ, reduceLoop_roots ops' h.sorted _ Q _ m hm K hroot]
    simp [Function.comp_def]
  · simp only [StatDict.reduce, StatDict.filterStatItems, h.roots, ok_bind, u1, StatDict.statItems, i1, pure_M, if_neg hnn]
    rw [k2, hc (hKK.length_eq ▸ hKlen), ← hKK.length_eq, ← hQ, ← hsum, reduceLoop_roots ops' h.sorted _ Q _ m hm K'
      fun it hit => hroot it (hKK.mem_iff.2 hit)]
    simp [Function.comp_def]

end VGram
