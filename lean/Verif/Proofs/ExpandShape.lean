import Verif.Proofs.Gain
import Verif.Proofs.MinProb

/-! # The shape of an expansion, and the exact minimal probabilities -/

namespace VGram

open Spec

variable {F : Type}

/-- What an entry of the pair table contributes to the second loop of `expand`. -/
theorem expandPairs_full {E : Env F} {s : StatDict F} {st en : List Int} {total : Int} : ∀ (p : PairMap) (known : List IntSeq)
    (items : List (StatItem F)), (∀ e ∈ p, (0 ≤ e.1.1 ∧ e.1.1 < (s.dict.seqs.length : Int)) ∧ (0 ≤ e.1.2 ∧ e.1.2 < (s.dict.seqs.length : Int))) →
    (∀ e ∈ p, e.1.1.toNat < st.length ∧ e.1.2.toNat < en.length) →
    StatDict.expandPairs E s st en total p known = .ok items →
    (∀ it ∈ items, 0 ≤ it.first ∧ ((it.first, it.second), it.count) ∈ p ∧
      StatDict.pairScore E it.count it.count (fq st it.first.toNat - it.count) (fq en it.second.toNat - it.count)
        (total - (fq st it.first.toNat - it.count) - (fq en it.second.toNat - it.count) - it.count) = .ok it.score) ∧
    ∀ e ∈ p, wordAt s e.1.1 ++ wordAt s e.1.2 ∈ known ∨ wordAt s e.1.1 ++ wordAt s e.1.2 ∈ items.map (txt s) := by
  intro p
  induction p with
  | nil => intro known items _ _ h; cases h; simp
  | cons e p ih =>
    obtain ⟨⟨a, b⟩, f⟩ := e
    intro known items hr hl h
    have hr0 := hr ((a, b), f) (by simp)
    have hl0 := hl ((a, b), f) (by simp)
    dsimp only at hr0 hl0
    obtain ⟨m, rfl⟩ : ∃ n : Nat, a = (n : Int) := ⟨a.toNat, by omega⟩
    obtain ⟨n, rfl⟩ : ∃ n : Nat, b = (n : Int) := ⟨b.toNat, by omega⟩
    rw [Int.toNat_natCast, Int.toNat_natCast] at hl0
    simp only [StatDict.expandPairs, rd_fq hl0.2, ok_bind, rd_fq hl0.1] at h
    obtain ⟨score, h1, h⟩ := bind_ok.1 h
    have hin : ItemIn s ⟨(m : Int), (n : Int), score, f⟩ := ⟨fun _ => hr0.1.2, hr0.2.1, hr0.2.2⟩
    rw [itemText_eq hin, ok_bind] at h
    have htxt : txt s ⟨(m : Int), (n : Int), score, f⟩ = wordAt s (m : Int) ++ wordAt s (n : Int) := by
      simp [txt]
    rw [htxt] at h
    have hr' := fun e he => hr e (List.mem_cons_of_mem _ he)
    have hl' := fun e he => hl e (List.mem_cons_of_mem _ he)
    split at h
    · next hk =>
      obtain ⟨i1, i2⟩ := ih known items hr' hl' h
      refine ⟨fun it hit => ?_, fun e he => ?_⟩
      · obtain ⟨a1, a2, a3⟩ := i1 it hit
        exact ⟨a1, List.mem_cons_of_mem _ a2, a3⟩
      · rcases List.mem_cons.1 he with rfl | he
        · exact Or.inl (by simpa using hk)
        · exact i2 e he
    · obtain ⟨items', h2, h⟩ := bind_ok.1 h
      cases h
      obtain ⟨i1, i2⟩ := ih _ items' hr' hl' h2
      refine ⟨fun it hit => ?_, fun e he => ?_⟩
      · rcases List.mem_cons.1 hit with rfl | hit
        · refine ⟨by show (0 : Int) ≤ m; omega, by simp, ?_⟩
          simpa using h1
        · obtain ⟨a1, a2, a3⟩ := i1 it hit
          exact ⟨a1, List.mem_cons_of_mem _ a2, a3⟩
      · rcases List.mem_cons.1 he with rfl | he
        · exact Or.inr (List.mem_map.2 ⟨_, by simp, htxt⟩)
        · rcases i2 e he with hh | hh
          · rcases List.mem_cons.1 hh with hh | hh
            · exact Or.inr (List.mem_map.2 ⟨_, List.mem_cons_self, htxt.trans hh.symm⟩)
            · exact Or.inl hh
          · right
            rw [List.map_cons]
            exact List.mem_cons_of_mem _ hh

/-- The running minimum of an expansion. -/
def expMin (O : FloatOps F) (acc : Int) (taken : List (StatItem F)) (mp : F) : F :=
  taken.foldl (fun m it => if 0 ≤ it.first then O.min m (O.div (O.ofInt it.count) (O.ofInt acc)) else m) mp

theorem expandTake_full (O : FloatOps F) {s : StatDict F} (acc : Int) : ∀ (items : List (StatItem F)) (slots : Int) (mp : F),
    (∀ it ∈ items, ItemIn s it) →
    ∃ taken rest, items = taken ++ rest ∧
      StatDict.expandTake O s acc items slots mp = .ok (taken.map (txt s), taken.map (·.count), expMin O acc taken mp) ∧
      (taken.length ≤ slots.toNat) ∧ (∀ it ∈ taken, O.lt it.score (O.ofInt 0) = false) ∧
      (rest = [] ∨ slots ≤ taken.length ∨ ∃ it rest', rest = it :: rest' ∧ O.lt it.score (O.ofInt 0) = true) := by
  intro items
  induction items with
  | nil => intro slots mp _; exact ⟨[], [], rfl, rfl, by simp, by simp, Or.inl rfl⟩
  | cons it items ih =>
    intro slots mp h
    simp only [StatDict.expandTake]
    by_cases h1 : O.lt it.score (O.ofInt 0) = true
    · rw [if_pos h1]
      exact ⟨[], it :: items, rfl, rfl, by simp, by simp, Or.inr (Or.inr ⟨it, items, rfl, h1⟩)⟩
    · rw [if_neg h1]
      by_cases h2 : slots - 1 < 0
      · rw [if_pos h2]
        exact ⟨[], it :: items, rfl, rfl, by simp, by simp, Or.inr (Or.inl (by simp; omega))⟩
      · rw [if_neg h2]
        obtain ⟨taken, rest, e1, e2, e3, e5, e4⟩ := ih (slots - 1)
          (if 0 ≤ it.first then O.min mp (O.div (O.ofInt it.count) (O.ofInt acc)) else mp) fun i hi => h i (by simp [hi])
        refine ⟨it :: taken, rest, by simp [e1], ?_, by simp; omega, ?_, ?_⟩
        · simp only [itemText_eq (h it (by simp)), ok_bind, e2, pure_M, List.map_cons]
          rfl
        · intro i hi
          rcases List.mem_cons.1 hi with rfl | hi
          · simpa using h1
          · exact e5 i hi
        · rcases e4 with h | h | h
          · exact Or.inl h
          · right; left; simp; omega
          · exact Or.inr (Or.inr h)

/-- An expansion: the old words first (in some order), then the new ones by decreasing score until the slots are used up or
the scores get negative. -/
theorem expand_shape {E : Env F} (L : EnvLaws E) {s : StatDict F} (h : ExpOk s) (slots : Int) :
    ∃ taken rest : List (StatItem F),
      s.expand E slots = .ok (taken.map (txt s), taken.map (·.count), expMin E.ops (pairSum (fun _ => true) s.pairs) taken s.minProb) ∧
      (taken ++ rest).Pairwise (fun a b => E.ops.lt (E.ops.neg b.score) (E.ops.neg a.score) = false) ∧
      ((taken ++ rest).map (txt s)).Nodup ∧
      (taken.length ≤ (slots + (s.dict.seqs.length : Int)).toNat) ∧
      (∀ it ∈ taken, E.ops.lt it.score (E.ops.ofInt 0) = false) ∧
      (rest = [] ∨ slots + (s.dict.seqs.length : Int) ≤ taken.length ∨
        ∃ it rest', rest = it :: rest' ∧ E.ops.lt it.score (E.ops.ofInt 0) = true) ∧
      (∀ it ∈ taken ++ rest, ItemIn s it ∧
        ((∃ n : Nat, n < s.dict.seqs.length ∧ it = knownItem E.ops s n) ∨
        (0 ≤ it.first ∧ L.Num it.score ∧ ((it.first, it.second), it.count) ∈ s.pairs ∧
          wordAt s it.first ++ wordAt s it.second ∉ s.dict.seqs ∧
          StatDict.pairScore E it.count it.count (pairSum (fun k => k.1 == it.first) s.pairs - it.count)
            (pairSum (fun k => k.2 == it.second) s.pairs - it.count)
            (pairSum (fun _ => true) s.pairs - (pairSum (fun k => k.1 == it.first) s.pairs - it.count) -
              (pairSum (fun k => k.2 == it.second) s.pairs - it.count) - it.count) = .ok it.score))) ∧
      (∀ n : Nat, n < s.dict.seqs.length → knownItem E.ops s n ∈ taken ++ rest) ∧
      (∀ e ∈ s.pairs, wordAt s e.1.1 ++ wordAt s e.1.2 ∈ (taken ++ rest).map (txt s)) := by
  have hperm := L.order s.pairs
  obtain ⟨st, en, m1, m2, m3, m4, m5, m6⟩ := pairMarginals_spec (E.pairOrder s.pairs)
    (List.replicate s.symbolFreqs.length 0) (List.replicate s.symbolFreqs.length 0) (by
      intro e he
      have := h.pkey e (hperm.mem_iff.1 he)
      simp only [List.length_replicate]
      exact this)
  have hz : ∀ n i, fq (List.replicate n (0 : Int)) i = 0 := by
    intro n i
    rw [fq, List.getElem?_replicate]
    split <;> rfl
  simp only [List.length_replicate] at m2 m3
  have hsz := h.inv.size
  have hpkey : ∀ e ∈ E.pairOrder s.pairs, (0 ≤ e.1.1 ∧ e.1.1 < (s.symbolFreqs.length : Int)) ∧ (0 ≤ e.1.2 ∧ e.1.2 < (s.symbolFreqs.length : Int)) :=
    fun e he => h.pkey e (hperm.mem_iff.1 he)
  obtain ⟨fresh, p1, p2, p3⟩ := expandPairs_spec L (s := s) (st := st) (en := en) (total := sumI st) (E.pairOrder s.pairs)
    s.dict.seqs (by
      intro e he
      obtain ⟨⟨ha0, ha1⟩, hb0, hb1⟩ := hpkey e he
      obtain ⟨⟨a, b⟩, f⟩ := e
      dsimp only at ha0 ha1 hb0 hb1
      obtain ⟨a, rfl⟩ : ∃ n : Nat, a = (n : Int) := ⟨a.toNat, by omega⟩
      obtain ⟨b, rfl⟩ : ∃ n : Nat, b = (n : Int) := ⟨b.toNat, by omega⟩
      have hpos : ∀ e ∈ E.pairOrder s.pairs, 0 < e.2 := fun e he => h.ppos e (hperm.mem_iff.1 he)
      have hnd : ((E.pairOrder s.pairs).map (·.1)).Nodup := (hperm.map _).nodup_iff.2 h.pnodup
      refine ⟨a, b, rfl, by omega, by omega, by rw [m2]; omega, by rw [m3]; omega, hpos _ he, ?_, ?_, ?_⟩
      · rw [m4, hz]
        have := pairSum_le (fun k => k.1 == (a : Int)) hpos he (by simp)
        dsimp only; omega
      · rw [m5, hz]
        have := pairSum_le (fun k => k.2 == (b : Int)) hpos he (by simp)
        dsimp only; omega
      · rw [m4, m5, hz, hz, m6, sumI_replicate]
        have := pairSum_cross hpos hnd he
        dsimp only; omega)
  obtain ⟨f1, f2⟩ := expandPairs_full (E := E) (s := s) (E.pairOrder s.pairs) s.dict.seqs fresh (by
      intro e he
      have := hpkey e he
      omega) (by
      intro e he
      have := hpkey e he
      rw [m2, m3]
      omega) p1
  have hknown := expandKnown_eq E.ops h.sorted s.dict.seqs 0 (by simp)
  generalize hkn : (List.range' 0 s.dict.seqs.length).map (knownItem E.ops s) = known at hknown
  have hknmem : ∀ it, it ∈ known ↔ ∃ i : Nat, i < s.dict.seqs.length ∧ it = knownItem E.ops s i := by
    intro it
    rw [← hkn, List.mem_map]
    constructor
    · rintro ⟨i, hi, rfl⟩
      exact ⟨i, by simpa using hi, rfl⟩
    · rintro ⟨i, hi, rfl⟩
      exact ⟨i, by simpa using hi, rfl⟩
  have hknin : ∀ it ∈ known, ItemIn s it := by
    intro it hit
    obtain ⟨i, hi, rfl⟩ := (hknmem it).1 hit
    exact ⟨fun h => absurd h (by simp [knownItem]), by simp [knownItem], by simpa [knownItem] using hi⟩
  have hkntxt : known.map (txt s) = s.dict.seqs := by
    rw [← hkn]
    apply List.ext_getElem?
    intro i
    rw [List.map_map, List.getElem?_map]
    by_cases hi : i < s.dict.seqs.length
    · rw [List.getElem?_range' hi]
      simp [txt, knownItem, wordAt, List.getElem?_eq_getElem hi]
    · rw [List.getElem?_eq_none (by simpa using hi), List.getElem?_eq_none (by omega)]
      rfl
  obtain ⟨sp, ss⟩ := L.sort (known ++ fresh) (by
    intro a ha
    rcases List.mem_append.1 ha with ha | ha
    · obtain ⟨i, _, rfl⟩ := (hknmem a).1 ha
      exact Or.inl rfl
    · exact Or.inr (p2 a ha).2.2.1)
  generalize hsorted : E.sortItems (known ++ fresh) = items at sp ss
  have hin : ∀ it ∈ items, ItemIn s it := by
    intro it hit
    rcases List.mem_append.1 (sp.mem_iff.1 hit) with hit | hit
    · exact hknin it hit
    · exact (p2 it hit).1
  have hacc : sumI ((E.pairOrder s.pairs).map (·.2)) = pairSum (fun _ => true) s.pairs := by
    rw [← pairSum_perm _ hperm]
    simp [pairSum, sumI_eq]
  obtain ⟨taken, rest, t1, t2, t3, t5, t4⟩ := expandTake_full E.ops (sumI ((E.pairOrder s.pairs).map (·.2))) items
    (slots + (s.dict.size : Int)) s.minProb hin
  have hnd : ((known ++ fresh).map (txt s)).Nodup := by
    rw [List.map_append, hkntxt, List.nodup_append]
    refine ⟨h.sorted.nodup, p3, ?_⟩
    rintro a ha b hb rfl
    obtain ⟨it, hit, rfl⟩ := List.mem_map.1 hb
    exact (p2 it hit).2.2.2.2 ha
  rw [hacc] at t2
  refine ⟨taken, rest, ?_, by rw [← t1]; exact ss, by rw [← t1]; exact (sp.map _).nodup_iff.2 hnd, t3, t5, t4, ?_, ?_, ?_⟩
  · simp only [StatDict.expand, hknown, ok_bind, m1, p1, hsorted, hacc]
    exact t2
  · intro it hit
    rw [← t1] at hit
    refine ⟨hin it hit, ?_⟩
    rcases List.mem_append.1 (sp.mem_iff.1 hit) with hk | hf
    · exact Or.inl ((hknmem it).1 hk)
    · right
      obtain ⟨a1, a2, a3, a4, a5⟩ := p2 it hf
      obtain ⟨_, _, b3⟩ := f1 it hf
      have e1 : ((it.first.toNat : Nat) : Int) = it.first := by omega
      have e2 : ((it.second.toNat : Nat) : Int) = it.second := by have := a1.2; omega
      rw [m4, m5, hz, hz, m6, sumI_replicate, e1, e2, pairSum_perm _ hperm, pairSum_perm _ hperm, pairSum_perm _ hperm] at b3
      refine ⟨a2, a3, hperm.mem_iff.1 a4, ?_, by simpa using b3⟩
      simpa [txt, a2] using a5
  · intro n hn
    rw [← t1]
    exact sp.mem_iff.2 (List.mem_append_left _ ((hknmem _).2 ⟨n, hn, rfl⟩))
  · intro e he
    rw [← t1]
    have hm : ((known ++ fresh).map (txt s)).Perm (items.map (txt s)) := (sp.map _).symm
    rw [← hm.mem_iff, List.map_append, hkntxt]
    exact List.mem_append.2 (f2 e (hperm.mem_iff.2 he))

/-! ## the pair table and the emitted lists -/

theorem pairGet_of_mem {p : PairMap} (hnd : (p.map (·.1)).Nodup) {e : (Int × Int) × Int} (he : e ∈ p) : pairGet p e.1 = e.2 := by
  induction p with
  | nil => simp at he
  | cons x p ih =>
    rw [List.map_cons, List.nodup_cons] at hnd
    rcases List.mem_cons.1 he with rfl | he
    · simp [pairGet, List.lookup]
    · have hne : (e.1 == x.1) = false := by
        rw [beq_eq_false_iff_ne]
        intro h
        exact hnd.1 (h ▸ List.mem_map_of_mem he)
      have := ih hnd.2 he
      simpa [pairGet, List.lookup, hne] using this

theorem pairGet_pos_mem {p : PairMap} {k : Int × Int} (h : pairGet p k ≠ 0) : (k, pairGet p k) ∈ p := by
  induction p with
  | nil => simp [pairGet] at h
  | cons x p ih =>
    obtain ⟨k', f⟩ := x
    by_cases hk : k = k'
    · subst hk
      simp [pairGet, List.lookup]
    · have hb : (k == k') = false := by simpa using hk
      have e : pairGet ((k', f) :: p) k = pairGet p k := by simp [pairGet, List.lookup, hb]
      rw [e] at h ⊢
      exact List.mem_cons_of_mem _ (ih h)

/-- If the table holds the numbers of occurrences in `l`, its partial sums count in `l`. -/
theorem pairSum_count {p : PairMap} (hnd : (p.map (·.1)).Nodup) (c : Int × Int → Bool) : ∀ (l : List (Int × Int)),
    (∀ k, pairGet p k = l.count k) → pairSum c p = l.countP c := by
  have key : ∀ (keys : List (Int × Int)), keys.Nodup → ∀ l : List (Int × Int), (∀ x ∈ l, x ∈ keys) →
      ((keys.filter c).map fun k => (l.count k : Int)).sum = l.countP c := by
    intro keys hk l
    induction l with
    | nil => intro _; simp
    | cons x l ih =>
      intro hx
      have h1 := ih fun y hy => hx y (by simp [hy])
      have h2 : ((keys.filter c).map fun k => ((x :: l).count k : Int)).sum =
          ((keys.filter c).map fun k => (l.count k : Int)).sum + ((keys.filter c).map fun k => if x == k then (1 : Int) else 0).sum := by
        rw [← List.sum_map_add]
        congr 1
        refine List.map_congr_left fun k _ => ?_
        rw [List.count_cons]
        push_cast
        split <;> rfl
      have h3 : ∀ m : List (Int × Int), m.Nodup → (m.map fun k => if x == k then (1 : Int) else 0).sum = if x ∈ m then 1 else 0 := by
        intro m
        induction m with
        | nil => intro _; simp
        | cons y m ihm =>
          intro hm
          rw [List.nodup_cons] at hm
          rw [List.map_cons, List.sum_cons, ihm hm.2]
          by_cases hxy : x = y
          · subst hxy
            simp [hm.1]
          · simp [hxy]
      rw [h2, h1, h3 _ (hk.filter _), List.countP_cons]
      have hxk := hx x (by simp)
      by_cases hc : c x = true
      · simp [hxk, hc]
      · simp [hc]
  intro l hl
  have hmem : ∀ x ∈ l, x ∈ p.map (·.1) := by
    intro x hx
    have h0 : pairGet p x ≠ 0 := by
      rw [hl]
      have := List.count_pos_iff.2 hx
      omega
    exact List.mem_map.2 ⟨_, pairGet_pos_mem h0, rfl⟩
  rw [← key _ hnd l hmem]
  unfold pairSum
  rw [List.filter_map, List.map_map]
  congr 1
  refine List.map_congr_left fun e he => ?_
  have he' : e ∈ p := List.mem_of_mem_filter he
  rw [← pairGet_of_mem hnd he', hl]
  rfl

/-! ## minimal probabilities -/

/-- `m` is the least of `a` and the values in `l`. -/
theorem expMin_spec {O : FloatOps F} (P : ProbLaws O) {acc : Int} (hacc : 1 ≤ acc) : ∀ (taken : List (StatItem F)) (mp : F),
    P.Ok mp → (∀ it ∈ taken, 0 ≤ it.first → 0 ≤ it.count) →
    P.Ok (expMin O acc taken mp) ∧ O.lt mp (expMin O acc taken mp) = false ∧
    (∀ it ∈ taken, 0 ≤ it.first → O.lt (O.div (O.ofInt it.count) (O.ofInt acc)) (expMin O acc taken mp) = false) ∧
    (expMin O acc taken mp = mp ∨ ∃ it ∈ taken, 0 ≤ it.first ∧ expMin O acc taken mp = O.div (O.ofInt it.count) (O.ofInt acc)) := by
  intro taken
  induction taken with
  | nil => intro mp h _; exact ⟨h, ProbLaws.refl P h, by simp, Or.inl rfl⟩
  | cons it taken ih =>
    intro mp h hc
    have hstep : expMin O acc (it :: taken) mp = expMin O acc taken
        (if 0 ≤ it.first then O.min mp (O.div (O.ofInt it.count) (O.ofInt acc)) else mp) := rfl
    rw [hstep]
    by_cases hf : 0 ≤ it.first
    · rw [if_pos hf]
      have hd := P.div it.count acc (hc it (by simp) hf) hacc
      obtain ⟨a1, a2, a3⟩ := min_spec P h hd
      obtain ⟨b1, b2, b3, b4⟩ := ih _ a1 fun i hi => hc i (by simp [hi])
      refine ⟨b1, P.leTrans _ _ _ b1 a1 h b2 a2, ?_, ?_⟩
      · intro i hi hi0
        rcases List.mem_cons.1 hi with rfl | hi
        · exact P.leTrans _ _ _ b1 a1 hd b2 a3
        · exact b3 i hi hi0
      · rcases b4 with e | ⟨i, hi, hi0, e⟩
        · rw [e]
          unfold FloatOps.min
          split
          · exact Or.inr ⟨it, by simp, hf, rfl⟩
          · exact Or.inl rfl
        · exact Or.inr ⟨i, by simp [hi], hi0, e⟩
    · rw [if_neg hf]
      obtain ⟨b1, b2, b3, b4⟩ := ih _ h fun i hi => hc i (by simp [hi])
      refine ⟨b1, b2, ?_, ?_⟩
      · intro i hi hi0
        rcases List.mem_cons.1 hi with rfl | hi
        · exact absurd hi0 hf
        · exact b3 i hi hi0
      · rcases b4 with e | ⟨i, hi, hi0, e⟩
        · exact Or.inl e
        · exact Or.inr ⟨i, by simp [hi], hi0, e⟩

theorem reduceLoop_min_exact {O : FloatOps F} (P : ProbLaws O) {s : StatDict F} {power : Int} (hp : 1 ≤ power + (s.size : Int)) :
    ∀ (items : List (StatItem F)) (mp : F) (r : List IntSeq × List Int × F), P.Ok mp → (∀ it ∈ items, 0 ≤ it.count) →
    s.reduceLoop O power items mp = .ok r →
    P.Ok r.2.2 ∧ O.lt mp r.2.2 = false ∧
    (∀ it ∈ items, ∀ p, s.dict.parent it.second = .ok p → 0 ≤ p →
      O.lt (O.div (O.ofInt (it.count + 1)) (O.ofInt (power + (s.size : Int)))) r.2.2 = false) ∧
    (r.2.2 = mp ∨ ∃ it ∈ items, (∃ p, s.dict.parent it.second = .ok p ∧ 0 ≤ p) ∧
      r.2.2 = O.div (O.ofInt (it.count + 1)) (O.ofInt (power + (s.size : Int)))) := by
  intro items
  induction items with
  | nil =>
    intro mp r h _ hr
    cases hr
    exact ⟨h, ProbLaws.refl P h, by simp, Or.inl rfl⟩
  | cons it items ih =>
    intro mp r h hc hr
    simp only [StatDict.reduceLoop] at hr
    obtain ⟨p, hpar, hr⟩ := bind_ok.1 hr
    obtain ⟨w, _, hr⟩ := bind_ok.1 hr
    obtain ⟨r', hr', hr⟩ := bind_ok.1 hr
    cases hr
    have hd := P.div (it.count + 1) (power + (s.size : Int)) (by have := hc it (by simp); omega) hp
    obtain ⟨a1, a2, a3⟩ := min_spec P hd h
    by_cases hp0 : 0 ≤ p
    · rw [if_pos hp0] at hr'
      obtain ⟨b1, b2, b3, b4⟩ := ih _ _ a1 (fun i hi => hc i (by simp [hi])) hr'
      refine ⟨b1, P.leTrans _ _ _ b1 a1 h b2 a3, ?_, ?_⟩
      · intro i hi q hq hq0
        rcases List.mem_cons.1 hi with rfl | hi
        · exact P.leTrans _ _ _ b1 a1 hd b2 a2
        · exact b3 i hi q hq hq0
      · rcases b4 with e | ⟨i, hi, hi0, e⟩
        · show r'.2.2 = _ ∨ _
          dsimp only
          rw [e]
          unfold FloatOps.min
          split
          · exact Or.inl rfl
          · exact Or.inr ⟨it, by simp, ⟨p, hpar, hp0⟩, rfl⟩
        · exact Or.inr ⟨i, by simp [hi], hi0, e⟩
    · rw [if_neg hp0] at hr'
      obtain ⟨b1, b2, b3, b4⟩ := ih _ _ h (fun i hi => hc i (by simp [hi])) hr'
      refine ⟨b1, b2, ?_, ?_⟩
      · intro i hi q hq hq0
        rcases List.mem_cons.1 hi with rfl | hi
        · rw [hpar] at hq
          cases hq
          exact absurd hq0 hp0
        · exact b3 i hi q hq hq0
      · rcases b4 with e | ⟨i, hi, hi0, e⟩
        · exact Or.inl e
        · exact Or.inr ⟨i, by simp [hi], hi0, e⟩

end VGram
