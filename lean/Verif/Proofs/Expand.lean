import Verif.Spec.Env
import Verif.Proofs.Healthy

/-! # `expand` -/

namespace VGram

open Spec

variable {F : Type}

/-- Searching a word of a sorted dictionary finds it and changes nothing. -/
theorem search_self {d : IntDict} (hd : Sorted d) {n : Nat} {w : IntSeq} (hw : d.seqs[n]? = some w) :
    d.search w none = .ok (d, (n : Int)) := by
  have hne := hd.nonempty w (List.mem_of_getElem? hw)
  obtain ⟨d', i, hs, ho, hmax⟩ := search_raw hd.wf w none (fun _ => hne)
  obtain ⟨h1, h2⟩ := hmax hd n w hw (List.prefix_refl _) rfl
  subst h2
  cases ho with
  | hit m v e1 e2 e3 e4 _ =>
    subst e2
    have hv : v = w := le_antisymm (prefix_le e4) (sorted_le hd.le (by omega) hw e3)
    rw [hv] at e3
    rw [hs, index_unique hd.nodup hw e3]
  | miss e1 => exact absurd rfl e1
  | grow x xs _ _ e3 _ =>
    have := congrArg (fun d => d.seqs.length) e3
    simp [appendSym] at this

/-- Word of id `i`, empty outside. -/
def wordAt (s : StatDict F) (i : Int) : IntSeq := (s.dict.seqs[i.toNat]?).getD []

/-- Text of an item. -/
def txt (s : StatDict F) (it : StatItem F) : IntSeq :=
  if 0 ≤ it.first then wordAt s it.first ++ wordAt s it.second else wordAt s it.second

/-- The ids of an item are valid. -/
def ItemIn (s : StatDict F) (it : StatItem F) : Prop :=
  (0 ≤ it.first → it.first < (s.dict.seqs.length : Int)) ∧ 0 ≤ it.second ∧ it.second < (s.dict.seqs.length : Int)

theorem get_wordAt {s : StatDict F} {i : Int} (h0 : 0 ≤ i) (h1 : i < (s.dict.seqs.length : Int)) :
    s.dict.get i = .ok (wordAt s i) := by
  obtain ⟨n, rfl⟩ : ∃ n : Nat, i = (n : Int) := ⟨i.toNat, by omega⟩
  have : n < s.dict.seqs.length := by omega
  rw [IntDict.get, rd_of_lt this]
  simp [wordAt, List.getElem?_eq_getElem this]

theorem wordAt_mem {s : StatDict F} {i : Int} (h0 : 0 ≤ i) (h1 : i < (s.dict.seqs.length : Int)) :
    wordAt s i ∈ s.dict.seqs := by
  obtain ⟨n, rfl⟩ : ∃ n : Nat, i = (n : Int) := ⟨i.toNat, by omega⟩
  have : n < s.dict.seqs.length := by omega
  simp [wordAt, List.getElem?_eq_getElem this]

theorem itemText_eq {s : StatDict F} {it : StatItem F} (h : ItemIn s it) : s.itemText it = .ok (txt s it) := by
  unfold StatDict.itemText txt
  by_cases hf : 0 ≤ it.first
  · rw [if_pos hf, if_pos hf, get_wordAt hf (h.1 hf), ok_bind, get_wordAt h.2.1 h.2.2, ok_bind]
    rfl
  · rw [if_neg hf, if_neg hf, get_wordAt h.2.1 h.2.2]

/-- The items of the first loop of `expand`. -/
def knownItem (O : FloatOps F) (s : StatDict F) (i : Nat) : StatItem F := ⟨-1, (i : Int), O.maxVal, s.freq (i : Int)⟩

theorem expandKnown_eq (O : FloatOps F) {s : StatDict F} (hs : Sorted s.dict) : ∀ (l : List IntSeq) (k : Nat),
    s.dict.seqs.drop k = l → StatDict.expandKnown O s l = .ok ((List.range' k l.length).map (knownItem O s)) := by
  intro l
  induction l with
  | nil => intro k _; rfl
  | cons w l ih =>
    intro k hk
    have hw : s.dict.seqs[k]? = some w := by
      rw [← List.head?_drop, hk]; rfl
    have hk' : s.dict.seqs.drop (k + 1) = l := by
      have := congrArg List.tail hk
      simpa using this
    simp only [StatDict.expandKnown, search_self hs hw, ok_bind, if_true, ih (k + 1) hk', pure_M]
    simp [List.range'_succ, knownItem]

/-! ## marginals -/

/-- Sum of the frequencies of the pairs with `c`. -/
def pairSum (c : Int × Int → Bool) (p : PairMap) : Int := ((p.filter fun e => c e.1).map (·.2)).sum

theorem pairSum_cons (c : Int × Int → Bool) (e : (Int × Int) × Int) (p : PairMap) :
    pairSum c (e :: p) = (if c e.1 then e.2 else 0) + pairSum c p := by
  unfold pairSum
  by_cases h : c e.1 = true <;> simp [h]

theorem pairMarginals_spec : ∀ (p : PairMap) (st en : List Int),
    (∀ e ∈ p, (0 ≤ e.1.1 ∧ e.1.1 < (st.length : Int)) ∧ (0 ≤ e.1.2 ∧ e.1.2 < (en.length : Int))) →
    ∃ st' en', StatDict.pairMarginals p st en = .ok (st', en') ∧ st'.length = st.length ∧ en'.length = en.length ∧
      (∀ i : Nat, fq st' i = fq st i + pairSum (fun k => k.1 == (i : Int)) p) ∧
      (∀ i : Nat, fq en' i = fq en i + pairSum (fun k => k.2 == (i : Int)) p) ∧
      sumI st' = sumI st + pairSum (fun _ => true) p := by
  intro p
  induction p with
  | nil => intro st en _; exact ⟨st, en, rfl, rfl, rfl, by simp [pairSum], by simp [pairSum], by simp [pairSum]⟩
  | cons e p ih =>
    intro st en h
    obtain ⟨⟨a, b⟩, f⟩ := e
    have hh := h ((a, b), f) (by simp)
    obtain ⟨m, rfl⟩ : ∃ n : Nat, a = (n : Int) := ⟨a.toNat, by simp at hh; omega⟩
    obtain ⟨n, rfl⟩ : ∃ n : Nat, b = (n : Int) := ⟨b.toNat, by simp at hh; omega⟩
    have hm : m < st.length := by simp at hh; omega
    have hn : n < en.length := by simp at hh; omega
    obtain ⟨st', en', i1, i2, i3, i4, i5, i6⟩ := ih (st.set m (fq st m + f)) (en.set n (fq en n + f))
      (fun e he => by simpa using h e (by simp [he]))
    refine ⟨st', en', ?_, by simpa using i2, by simpa using i3, ?_, ?_, ?_⟩
    · simp only [StatDict.pairMarginals, rd_fq hm, ok_bind, wr_of_lt hm, rd_fq hn, wr_of_lt hn, i1]
    · intro i
      rw [i4, fq_set hm, pairSum_cons]
      by_cases e : i = m
      · subst e; simp; omega
      · have : ((m : Int) == (i : Int)) = false := by simp; omega
        simp [e, this]
    · intro i
      rw [i5, fq_set hn, pairSum_cons]
      by_cases e : i = n
      · subst e; simp; omega
      · have : ((n : Int) == (i : Int)) = false := by simp; omega
        simp [e, this]
    · rw [i6, sumI_set hm, pairSum_cons]
      simp
      omega

theorem pairSum_nonneg (c : Int × Int → Bool) {p : PairMap} (h : ∀ e ∈ p, 0 < e.2) : 0 ≤ pairSum c p := by
  induction p with
  | nil => simp [pairSum]
  | cons e p ih =>
    rw [pairSum_cons]
    have := h e (by simp)
    have := ih fun e he => h e (by simp [he])
    split <;> omega

theorem pairSum_le (c : Int × Int → Bool) {p : PairMap} (h : ∀ e ∈ p, 0 < e.2) {k : Int × Int} {f : Int} (hk : (k, f) ∈ p)
    (hc : c k = true) : f ≤ pairSum c p := by
  induction p with
  | nil => simp at hk
  | cons e p ih =>
    rw [pairSum_cons]
    have he := h e (by simp)
    rcases List.mem_cons.1 hk with rfl | hk
    · have := pairSum_nonneg c fun e he => h e (List.mem_cons_of_mem _ he)
      simp only [hc, if_true]
      omega
    · have := ih (fun e he => h e (by simp [he])) hk
      split <;> omega

/-- The two marginals of a pair overlap exactly in the pair itself. -/
theorem pairSum_cross {p : PairMap} (h : ∀ e ∈ p, 0 < e.2) (hnd : (p.map (·.1)).Nodup) {a b f : Int} (hk : ((a, b), f) ∈ p) :
    pairSum (fun k => k.1 == a) p + pairSum (fun k => k.2 == b) p - f ≤ pairSum (fun _ => true) p := by
  have key : ∀ q : PairMap, (∀ e ∈ q, 0 < e.2) →
      pairSum (fun k => k.1 == a) q + pairSum (fun k => k.2 == b) q - pairSum (fun k => k == (a, b)) q ≤
        pairSum (fun _ => true) q := by
    intro q hq
    induction q with
    | nil => simp [pairSum]
    | cons e q ih =>
      have he := hq e (by simp)
      have := ih fun e he => hq e (by simp [he])
      simp only [pairSum_cons]
      obtain ⟨⟨x, y⟩, g⟩ := e
      by_cases h1 : x = a <;> by_cases h2 : y = b <;> simp_all <;> omega
  have heq : pairSum (fun k => k == (a, b)) p = f := by
    clear h key
    induction p with
    | nil => simp at hk
    | cons e p ih =>
      rw [List.map_cons, List.nodup_cons] at hnd
      rw [pairSum_cons]
      rcases List.mem_cons.1 hk with rfl | hk
      · have : pairSum (fun k => k == (a, b)) p = 0 := by
          unfold pairSum
          rw [List.filter_eq_nil_iff.2]
          · rfl
          · intro e he
            have : e.1 ≠ (a, b) := fun h => hnd.1 (List.mem_map.2 ⟨e, he, h⟩)
            simpa using this
        simp [this]
      · have hne : e.1 ≠ (a, b) := fun h => hnd.1 (by rw [h]; exact List.mem_map_of_mem hk)
        have : (e.1 == (a, b)) = false := by simpa using hne
        rw [this, ih hnd.2 hk]
        simp
  have := key p h
  omega

theorem pairSum_perm (c : Int × Int → Bool) {p q : PairMap} (h : p.Perm q) : pairSum c p = pairSum c q :=
  ((h.filter _).map _).sum_eq

/-! ## scores -/

theorem pairScore_num {E : Env F} (L : EnvLaws E) {f ab ay xb xy : Int} (h1 : 0 ≤ ab) (h2 : 0 ≤ ay) (h3 : 0 ≤ xb) (h4 : 0 ≤ xy) :
    ∃ x, StatDict.pairScore E f ab ay xb xy = .ok x ∧ L.Num x := by
  have hgam : ∀ i < 4, L.Pos 160 (E.gammas [E.ops.ofInt (ab + 1), E.ops.ofInt (ay + 1), E.ops.ofInt (xb + 1), E.ops.ofInt (xy + 1)] i) :=
    L.gamma [ab + 1, ay + 1, xb + 1, xy + 1] rfl fun n hn => by
      simp only [List.mem_cons, List.not_mem_nil, or_false] at hn
      omega
  generalize hps : [E.ops.ofInt (ab + 1), E.ops.ofInt (ay + 1), E.ops.ofInt (xb + 1), E.ops.ofInt (xy + 1)] = params at hgam
  have hlen : params.length = 4 := by rw [← hps]; rfl
  obtain ⟨inv, hinv, hsam⟩ : ∃ inv, L.Pos 163 inv ∧ StatDict.nextDirichlet E params =
      (List.range 4).map fun i => E.ops.mul (E.gammas params i) inv := by
    refine ⟨E.ops.div (E.ops.ofInt 1) (((List.range params.length).map (E.gammas params)).foldl E.ops.add (E.ops.ofInt 0)),
      L.divPos (j := 0) (k := 163) (by omega) L.one ?_, ?_⟩
    · rw [hlen]
      have : List.range 4 = [0, 1, 2, 3] := rfl
      rw [this]
      simp only [List.map_cons, List.map_nil, List.foldl_cons, List.foldl_nil]
      have hg : ∀ (k : Nat), 160 ≤ k → ∀ i < 4, L.Pos k (E.gammas params i) := fun k hk i hi => L.monoPos hk (hgam i hi)
      exact L.addPos (by omega) (L.addPos (by omega) (L.addPos (by omega) (L.addZero (by omega) (hg 160 (by omega) 0 (by omega))) (hg 160 (by omega) 1 (by omega)))
        (hg 161 (by omega) 2 (by omega))) (hg 162 (by omega) 3 (by omega))
    · simp only [StatDict.nextDirichlet, List.map_map, hlen]
      rfl
  have hg : ∀ i < 4, L.Pos 323 (E.ops.mul (E.gammas params i) inv) := fun i hi => L.mulPos (by omega) (hgam i hi) hinv
  have hr : ∀ i : Nat, i < 4 → rd (StatDict.nextDirichlet E params) (i : Int) = .ok (E.ops.mul (E.gammas params i) inv) := by
    intro i hi
    rw [rd_nat_ok, hsam, List.getElem?_map, List.getElem?_range hi]
    rfl
  have r0 := hr 0 (by omega)
  have r1 := hr 1 (by omega)
  have r2 := hr 2 (by omega)
  simp only [Nat.cast_zero, Nat.cast_one, Nat.cast_ofNat] at r0 r1 r2
  simp only [StatDict.pairScore, hps, r0, r1, r2, ok_bind, pure_M]
  refine ⟨_, rfl, ?_⟩
  generalize hT : E.ops.div (E.ops.mul (E.ops.div (E.ops.mul (E.ops.ofInt f) (E.ops.mul (E.gammas params 0) inv)) _) _) _ = T
  have hT' : L.Mag 785 T := by
    rw [← hT]
    have a := hg 0 (by omega)
    have b := L.addPos (by omega) (hg 1 (by omega)) (hg 0 (by omega))
    have c := L.addPos (by omega) (hg 2 (by omega)) (hg 0 (by omega))
    have l : L.Mag 10 _ := L.log (L.monoPos (by omega) (L.divPos (j := 647) (k := 324) (by omega) (L.divPos (by omega) a b) c))
    exact L.div (j := 721) (by omega) (L.mul (j := 711) (by omega) (L.div (j := 387) (by omega) (L.mul (by omega) (L.int f) (L.posMag a)) b) l)
      (L.intPos 10 (by omega))
  have : ∀ (l : List Nat) (k : Nat) (x : F), 785 ≤ k → k + l.length ≤ 1000 → L.Mag k x →
      L.Mag (k + l.length) (l.foldl (fun score _ => E.ops.add score T) x) := by
    intro l
    induction l with
    | nil => intro k x _ _ h; exact h
    | cons _ l ih =>
      intro k x hk hl h
      rw [List.length_cons] at hl ⊢
      rw [← Nat.add_assoc, Nat.add_right_comm]
      exact ih (k + 1) _ (by omega) (by omega) (L.add (by omega) h (L.mono hk hT'))
  exact L.mono (by simp) (this (List.range 10) 785 _ (by omega) (by simp) (L.mono (by omega) (L.int 0)))

/-- Second loop of `expand`. -/
theorem expandPairs_spec {E : Env F} (L : EnvLaws E) {s : StatDict F} {st en : List Int} {total : Int} :
    ∀ (p : PairMap) (known : List IntSeq),
    (∀ e ∈ p, ∃ a b : Nat, e.1 = ((a : Int), (b : Int)) ∧ a < s.dict.seqs.length ∧ b < s.dict.seqs.length ∧
      a < st.length ∧ b < en.length ∧ 0 < e.2 ∧ e.2 ≤ fq st a ∧ e.2 ≤ fq en b ∧ fq st a + fq en b - e.2 ≤ total) →
    ∃ items, StatDict.expandPairs E s st en total p known = .ok items ∧
      (∀ it ∈ items, ItemIn s it ∧ 0 ≤ it.first ∧ L.Num it.score ∧ ((it.first, it.second), it.count) ∈ p ∧ txt s it ∉ known) ∧
      (items.map (txt s)).Nodup := by
  intro p
  induction p with
  | nil => intro known _; exact ⟨[], rfl, by simp, by simp⟩
  | cons e p ih =>
    intro known h
    obtain ⟨a, b, he, ha, hb, ha', hb', hf, hfa, hfb, hcr⟩ := h e (by simp)
    obtain ⟨⟨a0, b0⟩, f⟩ := e
    simp only [Prod.mk.injEq] at he
    obtain ⟨rfl, rfl⟩ := he
    dsimp only at hf hfa hfb hcr
    obtain ⟨x, hx, hnum⟩ := pairScore_num L (f := f) (ab := f) (ay := fq st a - f) (xb := fq en b - f)
      (xy := total - (fq st a - f) - (fq en b - f) - f) (by omega) (by omega) (by omega) (by omega)
    have hin : ItemIn s ⟨(a : Int), (b : Int), x, f⟩ := ⟨fun _ => by show (a : Int) < _; omega, by show (0 : Int) ≤ b; omega, by show (b : Int) < _; omega⟩
    simp only [StatDict.expandPairs, rd_fq hb', ok_bind, rd_fq ha', hx, itemText_eq hin]
    by_cases hk : known.contains (txt s ⟨(a : Int), (b : Int), x, f⟩) = true
    · rw [if_pos hk]
      obtain ⟨items, i1, i2, i3⟩ := ih known fun e he => h e (by simp [he])
      exact ⟨items, i1, fun it hit => by
        obtain ⟨c1, c2, c3, c4, c5⟩ := i2 it hit
        exact ⟨c1, c2, c3, List.mem_cons_of_mem _ c4, c5⟩, i3⟩
    · rw [if_neg hk]
      obtain ⟨items, i1, i2, i3⟩ := ih (txt s ⟨(a : Int), (b : Int), x, f⟩ :: known) fun e he => h e (by simp [he])
      refine ⟨⟨(a : Int), (b : Int), x, f⟩ :: items, by simp only [i1, ok_bind, pure_M], ?_, ?_⟩
      · intro it hit
        rcases List.mem_cons.1 hit with rfl | hit
        · exact ⟨hin, by show (0 : Int) ≤ a; omega, hnum, by simp, by simpa using hk⟩
        · obtain ⟨c1, c2, c3, c4, c5⟩ := i2 it hit
          exact ⟨c1, c2, c3, List.mem_cons_of_mem _ c4, fun h => c5 (by simp [h])⟩
      · rw [List.map_cons, List.nodup_cons]
        refine ⟨?_, i3⟩
        intro hmem
        obtain ⟨it, hit, heq⟩ := List.mem_map.1 hmem
        exact (i2 it hit).2.2.2.2 (by simp [heq])

/-- Last loop of `expand`. -/
theorem expandTake_spec (O : FloatOps F) {s : StatDict F} (acc : Int) : ∀ (items : List (StatItem F)) (slots : Int) (mp : F),
    (∀ it ∈ items, ItemIn s it) →
    ∃ taken rest m, items = taken ++ rest ∧
      StatDict.expandTake O s acc items slots mp = .ok (taken.map (txt s), taken.map (·.count), m) ∧
      (taken.length ≤ slots.toNat) ∧
      (rest = [] ∨ slots ≤ taken.length ∨ ∃ it rest', rest = it :: rest' ∧ O.lt it.score (O.ofInt 0) = true) := by
  intro items
  induction items with
  | nil => intro slots mp _; exact ⟨[], [], mp, rfl, rfl, by simp, Or.inl rfl⟩
  | cons it items ih =>
    intro slots mp h
    simp only [StatDict.expandTake]
    by_cases h1 : O.lt it.score (O.ofInt 0) = true
    · rw [if_pos h1]
      exact ⟨[], it :: items, mp, rfl, rfl, by simp, Or.inr (Or.inr ⟨it, items, rfl, h1⟩)⟩
    · rw [if_neg h1]
      by_cases h2 : slots - 1 < 0
      · rw [if_pos h2]
        exact ⟨[], it :: items, mp, rfl, rfl, by simp, Or.inr (Or.inl (by simp; omega))⟩
      · rw [if_neg h2]
        obtain ⟨taken, rest, m, e1, e2, e3, e4⟩ := ih (slots - 1)
          (if 0 ≤ it.first then O.min mp (O.div (O.ofInt it.count) (O.ofInt acc)) else mp) fun i hi => h i (by simp [hi])
        refine ⟨it :: taken, rest, m, by simp [e1], ?_, by simp; omega, ?_⟩
        · simp only [itemText_eq (h it (by simp)), ok_bind, e2, pure_M, List.map_cons]
        · rcases e4 with h | h | h
          · exact Or.inl h
          · right; left; simp; omega
          · exact Or.inr (Or.inr h)

/-- What `expand` needs. -/
structure ExpOk (s : StatDict F) : Prop where
  inv : SInv s
  sorted : Sorted s.dict
  pkey : ∀ e ∈ s.pairs, (0 ≤ e.1.1 ∧ e.1.1 < (s.symbolFreqs.length : Int)) ∧ (0 ≤ e.1.2 ∧ e.1.2 < (s.symbolFreqs.length : Int))
  ppos : ∀ e ∈ s.pairs, 0 < e.2
  pnodup : (s.pairs.map (·.1)).Nodup

theorem Healthy.expOk {s : StatDict F} (h : Healthy s) : ExpOk s :=
  ⟨h.inv, h.sorted, fun e he => by rw [h.full]; exact h.pkey e he, h.ppos, h.pnodup⟩

/-- What `expand` returns. -/
theorem expand_spec {E : Env F} (L : EnvLaws E) {s : StatDict F} (h : ExpOk s) (slots : Int) :
    ∃ words freqs mp, s.expand E slots = .ok (words, freqs, mp) ∧ words.Nodup ∧ words.length = freqs.length ∧
      (0 ≤ slots → ∀ w ∈ s.dict.seqs, w ∈ words) ∧
      (∀ w ∈ words, w ∈ s.dict.seqs ∨ ∃ a b : Int, (a, b) ∈ s.pairs.map (·.1) ∧ w = wordAt s a ++ wordAt s b) ∧
      words.length ≤ ((s.dict.seqs.length : Int) + slots).toNat ∧ (∀ f ∈ freqs, 0 ≤ f) := by
  have hperm := L.order s.pairs
  obtain ⟨st, en, m1, m2, m3, m4, m5, m6⟩ := pairMarginals_spec (E.pairOrder s.pairs)
    (List.replicate s.symbolFreqs.length 0) (List.replicate s.symbolFreqs.length 0) (by
      intro e he
      have := h.pkey e (hperm.mem_iff.1 he)
      simp only [List.length_replicate]
      exact this)
  have hz : ∀ n i, fq (List.replicate n (0 : Int)) i = 0 := by
    intro n i
    rw [fq, List.getElem?_replicate]
    split <;> rfl
  simp only [List.length_replicate] at m2 m3
  obtain ⟨fresh, p1, p2, p3⟩ := expandPairs_spec L (s := s) (st := st) (en := en) (total := sumI st) (E.pairOrder s.pairs)
    s.dict.seqs (by
      intro e he
      have hmem := hperm.mem_iff.1 he
      obtain ⟨⟨ha0, ha1⟩, hb0, hb1⟩ := h.pkey e hmem
      obtain ⟨⟨a, b⟩, f⟩ := e
      dsimp only at ha0 ha1 hb0 hb1
      obtain ⟨a, rfl⟩ : ∃ n : Nat, a = (n : Int) := ⟨a.toNat, by omega⟩
      obtain ⟨b, rfl⟩ : ∃ n : Nat, b = (n : Int) := ⟨b.toNat, by omega⟩
      have hpos : ∀ e ∈ E.pairOrder s.pairs, 0 < e.2 := fun e he => h.ppos e (hperm.mem_iff.1 he)
      have hnd : ((E.pairOrder s.pairs).map (·.1)).Nodup := (hperm.map _).nodup_iff.2 h.pnodup
      have hsz := h.inv.size
      refine ⟨a, b, rfl, by omega, by omega, by rw [m2]; omega, by rw [m3]; omega, hpos _ he, ?_, ?_, ?_⟩
      · rw [m4, hz]
        have := pairSum_le (fun k => k.1 == (a : Int)) hpos he (by simp)
        dsimp only; omega
      · rw [m5, hz]
        have := pairSum_le (fun k => k.2 == (b : Int)) hpos he (by simp)
        dsimp only; omega
      · rw [m4, m5, hz, hz, m6, sumI_replicate]
        have := pairSum_cross hpos hnd he
        dsimp only; omega)
  have hknown := expandKnown_eq E.ops h.sorted s.dict.seqs 0 (by simp)
  generalize hkn : (List.range' 0 s.dict.seqs.length).map (knownItem E.ops s) = known at hknown
  have hknlen : known.length = s.dict.seqs.length := by rw [← hkn]; simp
  have hknmem : ∀ it ∈ known, ∃ i : Nat, i < s.dict.seqs.length ∧ it = knownItem E.ops s i := by
    intro it hit
    rw [← hkn] at hit
    obtain ⟨i, hi, rfl⟩ := List.mem_map.1 hit
    exact ⟨i, by simpa using hi, rfl⟩
  have hknin : ∀ it ∈ known, ItemIn s it := by
    intro it hit
    obtain ⟨i, hi, rfl⟩ := hknmem it hit
    exact ⟨fun h => absurd h (by simp [knownItem]), by simp [knownItem], by simpa [knownItem] using hi⟩
  have hkntxt : known.map (txt s) = s.dict.seqs := by
    rw [← hkn]
    apply List.ext_getElem?
    intro i
    rw [List.map_map, List.getElem?_map]
    by_cases hi : i < s.dict.seqs.length
    · rw [List.getElem?_range' hi]
      simp [txt, knownItem, wordAt, List.getElem?_eq_getElem hi]
    · rw [List.getElem?_eq_none (by simpa using hi), List.getElem?_eq_none (by omega)]
      rfl
  obtain ⟨sp, ss⟩ := L.sort (known ++ fresh) (by
    intro a ha
    rcases List.mem_append.1 ha with ha | ha
    · obtain ⟨i, _, rfl⟩ := hknmem a ha
      exact Or.inl rfl
    · exact Or.inr (p2 a ha).2.2.1)
  generalize hsorted : E.sortItems (known ++ fresh) = items at sp ss
  have hin : ∀ it ∈ items, ItemIn s it := by
    intro it hit
    rcases List.mem_append.1 (sp.mem_iff.1 hit) with hit | hit
    · exact hknin it hit
    · exact (p2 it hit).1
  obtain ⟨taken, rest, m, t1, t2, t3, t4⟩ := expandTake_spec E.ops (sumI ((E.pairOrder s.pairs).map (·.2))) items
    (slots + (s.dict.size : Int)) s.minProb hin
  have hnd : ((known ++ fresh).map (txt s)).Nodup := by
    rw [List.map_append, hkntxt, List.nodup_append]
    refine ⟨h.sorted.nodup, p3, ?_⟩
    rintro a ha b hb rfl
    obtain ⟨it, hit, rfl⟩ := List.mem_map.1 hb
    exact (p2 it hit).2.2.2.2 ha
  have hnd' : (items.map (txt s)).Nodup := (sp.map _).nodup_iff.2 hnd
  refine ⟨taken.map (txt s), taken.map (·.count), m, ?_, ?_, by simp, ?_, ?_, ?_, ?_⟩
  · simp only [StatDict.expand, hknown, ok_bind, m1, p1, hsorted]
    exact t2
  · rw [t1, List.map_append] at hnd'
    exact (List.nodup_append.1 hnd').1
  · intro hs w hw
    rw [← hkntxt] at hw
    obtain ⟨a, ha, rfl⟩ := List.mem_map.1 hw
    refine List.mem_map_of_mem ?_
    have hai : a ∈ items := sp.mem_iff.2 (List.mem_append_left _ ha)
    rw [t1] at hai ss
    rcases List.mem_append.1 hai with h' | harest
    · exact h'
    exfalso
    have hascore : a.score = E.ops.maxVal := by
      obtain ⟨i, _, rfl⟩ := hknmem a ha
      rfl
    have hbefore : ∀ t ∈ items, E.ops.lt (E.ops.neg a.score) (E.ops.neg t.score) = false → t ∈ known := by
      intro t ht hlt
      rcases List.mem_append.1 (sp.mem_iff.1 ht) with hk | hf
      · exact hk
      · have := L.below _ (p2 t hf).2.2.1
        rw [hascore, this] at hlt
        cases hlt
    rcases t4 with hr | hr | ⟨it, rest', hr, hlt⟩
    · rw [hr] at harest; simp at harest
    · have hsub : ∀ t ∈ taken ++ [a], t ∈ known := by
        intro t ht
        rcases List.mem_append.1 ht with ht | ht
        · exact hbefore t (by rw [t1]; exact List.mem_append_left _ ht) ((List.pairwise_append.1 ss).2.2 t ht a harest)
        · simp only [List.mem_singleton] at ht
          exact ht ▸ ha
      have hndt : (taken ++ [a]).Nodup := by
        apply List.Nodup.of_map (txt s)
        rw [t1, List.map_append] at hnd'
        rw [List.map_append, List.nodup_append]
        refine ⟨(List.nodup_append.1 hnd').1, by simp, ?_⟩
        rintro x hx y hy rfl
        have hya : x = txt s a := by simpa using hy
        exact (List.nodup_append.1 hnd').2.2 x hx x (by rw [hya]; exact List.mem_map_of_mem harest) rfl
      have := (hndt.subperm hsub).length_le
      simp only [List.length_append, List.length_singleton, hknlen, IntDict.size] at this hr
      omega
    · have hit : it.score = E.ops.maxVal := by
        have hmem : it ∈ items := by rw [t1, hr]; simp
        have hk : it ∈ known := by
          rw [hr] at harest
          rcases List.mem_cons.1 harest with rfl | harest
          · exact ha
          · refine hbefore it hmem ?_
            have := (List.pairwise_append.1 ss).2.1
            rw [hr, List.pairwise_cons] at this
            exact this.1 a harest
        obtain ⟨i, _, rfl⟩ := hknmem it hk
        rfl
      rw [hit, L.top] at hlt
      cases hlt
  · intro w hw
    obtain ⟨it, hit, rfl⟩ := List.mem_map.1 hw
    have hit : it ∈ items := by rw [t1]; exact List.mem_append_left _ hit
    rcases List.mem_append.1 (sp.mem_iff.1 hit) with hk | hf
    · left
      rw [← hkntxt]
      exact List.mem_map_of_mem hk
    · obtain ⟨_, c2, _, c4, _⟩ := p2 it hf
      exact Or.inr ⟨it.first, it.second, List.mem_map.2 ⟨_, hperm.mem_iff.1 c4, rfl⟩, by simp [txt, c2]⟩
  · simp only [List.length_map, IntDict.size] at t3 ⊢
    rw [Int.add_comm]
    exact t3
  · intro f hf
    obtain ⟨it, hit, rfl⟩ := List.mem_map.1 hf
    have hit : it ∈ items := by rw [t1]; exact List.mem_append_left _ hit
    rcases List.mem_append.1 (sp.mem_iff.1 hit) with hk | hf
    · obtain ⟨i, _, rfl⟩ := hknmem it hk
      show 0 ≤ s.freq (i : Int)
      rw [freq_nat]
      by_cases hi : i < s.symbolFreqs.length
      · exact h.inv.nonneg _ (fq_mem hi)
      · rw [fq_of_le (by omega)]
    · have := h.ppos _ (hperm.mem_iff.1 (p2 it hf).2.2.2.1)
      dsimp only at this
      omega

end VGram
