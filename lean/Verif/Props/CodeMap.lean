import Verif.Model.CodeMap
import Verif.Props.Stream

/-!
# Reading the code map when saving (C99)
-/

namespace VGram.Props

open VGram Spec Saver

variable {F : Type}

theorem chainCells_length (last : NodePtr) : ∀ (l : List (Int × Int)) (b : Nat), (chainCells last b l).length = l.length := by
  intro l
  induction l with
  | nil => intro b; rfl
  | cons x xs ih => intro b; simp [chainCells, ih]

/-- Reading a chain up to a pointer that is not inside it reaches the end of the chain. -/
theorem readRange_chain (stop last : NodePtr) (l : List (Int × Int)) : ∀ (pre post : List Cell) (fuel : Nat),
    (∀ a, stop = .node a → a < pre.length ∨ pre.length + l.length ≤ a) →
    readRange (pre ++ chainCells last pre.length l ++ post) stop (l.length + fuel) (chainBegin last pre.length l) =
      (readRange (pre ++ chainCells last pre.length l ++ post) stop fuel last).map (l ++ ·) := by
  induction l with
  | nil =>
    intro pre post fuel _
    simp only [List.length_nil, Nat.zero_add, chainBegin, List.nil_append]
    cases readRange (pre ++ chainCells last pre.length [] ++ post) stop fuel last <;> rfl
  | cons x xs ih =>
    intro pre post fuel hs
    have e : pre ++ chainCells last pre.length (x :: xs) ++ post =
        (pre ++ [.node x (chainBegin last (pre.length + 1) xs)]) ++ chainCells last (pre ++ [Cell.node x (chainBegin last (pre.length + 1) xs)]).length xs ++ post := by
      simp [chainCells]
    have := ih (pre ++ [.node x (chainBegin last (pre.length + 1) xs)]) post fuel (fun a ha => by
      have := hs a ha
      simp only [List.length_cons] at this
      simp only [List.length_append, List.length_singleton]
      by_cases h : a = pre.length
      · omega
      · omega)
    rw [← e] at this
    rw [show (x :: xs).length + fuel = (xs.length + fuel) + 1 by simp; omega]
    have hne : NodePtr.node pre.length ≠ stop := fun h => by
      have := hs _ h.symm
      simp at this
    have hget : (pre ++ chainCells last pre.length (x :: xs) ++ post)[pre.length]? = some (.node x (chainBegin last (pre.length + 1) xs)) := by
      rw [List.append_assoc, List.getElem?_append_right (le_refl _)]
      simp [chainCells]
    rw [chainBegin, readRange, if_neg hne]
    simp only [hget]
    simp only [List.length_append, List.length_singleton] at this
    rw [this]
    cases readRange (pre ++ chainCells last pre.length (x :: xs) ++ post) stop fuel last <;> rfl

theorem insertByCode_perm (p : Int × Int) (l : List (Int × Int)) : (insertByCode p l).Perm (p :: l) := by
  induction l with
  | nil => exact List.Perm.refl _
  | cons q qs ih =>
    unfold insertByCode
    split
    · exact List.Perm.refl _
    · exact (ih.cons q).trans (List.Perm.swap p q qs)

theorem sortByCode_perm (l : List (Int × Int)) : (sortByCode l).Perm l := by
  induction l with
  | nil => exact List.Perm.refl _
  | cons p ps ih => exact (insertByCode_perm p _).trans (ih.cons p)

theorem insertByCode_sorted {p : Int × Int} {l : List (Int × Int)} (h : l.Pairwise fun a b => a.2 ≤ b.2) : (insertByCode p l).Pairwise fun a b => a.2 ≤ b.2 := by
  induction l with
  | nil => simp [insertByCode]
  | cons q qs ih =>
    unfold insertByCode
    have hq := List.pairwise_cons.1 h
    split
    · next hp =>
      refine List.pairwise_cons.2 ⟨fun a ha => ?_, h⟩
      rcases List.mem_cons.1 ha with rfl | ha
      · exact hp
      · exact le_trans hp (hq.1 a ha)
    · next hp =>
      refine List.pairwise_cons.2 ⟨fun a ha => ?_, ih hq.2⟩
      rcases List.mem_cons.1 ((insertByCode_perm p qs).mem_iff.1 ha) with rfl | ha
      · omega
      · exact hq.1 a ha

theorem sortByCode_sorted (l : List (Int × Int)) : (sortByCode l).Pairwise fun a b => a.2 ≤ b.2 := by
  induction l with
  | nil => exact List.Pairwise.nil
  | cons p ps ih => exact insertByCode_sorted ih

/-- Sorting forgets the order when the codes are distinct. -/
theorem sortByCode_of_perm {l r : List (Int × Int)} (h : l.Perm r) (hr : r.Pairwise fun a b => a.2 < b.2) : sortByCode l = r := by
  refine List.Perm.eq_of_pairwise (le := fun a b => a.2 ≤ b.2) (fun a b ha hb h1 h2 => ?_) (sortByCode_sorted l) (hr.imp fun h => le_of_lt h) ((sortByCode_perm l).trans h)
  have ha : a ∈ r := ((sortByCode_perm l).trans h).mem_iff.1 ha
  exact List.inj_on_of_nodup_map (f := Prod.snd) (by rw [List.Nodup, List.pairwise_map]; exact hr.imp fun h => ne_of_lt h) ha hb (by omega)

theorem codeMap_sorted {c : SeqCoder} {vals : List Int} (h : CInv c vals) : c.codeMap.Pairwise fun a b => a.2 < b.2 := by
  rw [SeqCoder.codeMap, h.entries, List.pairwise_map]
  have : ∀ (l : List Int) (k : Nat), (l.zipIdx k).Pairwise fun p q => (p.2 : Int) < (q.2 : Int) := by
    intro l
    induction l with
    | nil => intro k; simp
    | cons x xs ih =>
      intro k
      rw [List.zipIdx_cons, List.pairwise_cons]
      refine ⟨?_, ih _⟩
      rintro ⟨y, j⟩ hy
      have := (List.mem_zipIdx hy).1
      simp only
      omega
  exact this vals 0

/-- Reading from the first node of one copy to the end of another one. -/
theorem readRange_null (l : List (Int × Int)) (pre post : List Cell) (fuel : Nat) (hf : l.length < fuel) :
    readRange (pre ++ chainCells .null pre.length l ++ post) .null fuel (chainBegin .null pre.length l) = .ok l := by
  obtain ⟨k, rfl⟩ := Nat.exists_eq_add_of_lt hf
  rw [show l.length + k + 1 = l.length + (k + 1) by omega, readRange_chain _ _ _ _ _ _ (fun a h => by cases h)]
  simp only [readRange, if_true, Except.map, List.append_nil]

/-- **C99 (partial)**: when `end()` points to nothing, as in libstdc++ and libc++, saving writes the symbols in the order of their codes, which is the order in which
they were first met: for every history of the coder, whatever the order of the nodes in either copy, wherever the copies are in memory and whichever is made first.
Missing: other standard libraries, `C99_sentinel_false`. -/
theorem C99_code_map_partial (seqs : List IntSeq) (l l' : List (Int × Int)) (hl : l.Perm (coderAfter seqs).codeMap) (mem : List Cell) (first : Bool) :
    coderToJson (F := F) .null mem first l l' = .ok (.ofPushed ((seen seqs.flatten).map .int)) ∧
      coderToJson (F := F) .null mem first l l' = .ok (coderJson (coderAfter seqs)) := by
  rw [coderJson_eq (coderAfter_inv seqs), and_self]
  have hc := coderAfter_inv seqs
  have hj : Json.ofPushed ((sortByCode l).map fun p => .int p.1) = Json.ofPushed (F := F) ((seen seqs.flatten).map .int) := by
    rw [sortByCode_of_perm hl (codeMap_sorted hc), ← coderJson_eq hc, coderJson, sortByCode_of_perm (List.Perm.refl _) (codeMap_sorted hc)]
  cases first with
  | true =>
    simp only [coderToJson, codeMapCopy, if_true]
    rw [readRange_null _ _ _ _ (by simp only [List.length_append, chainCells_length]; omega), ok_bind, pure_M, hj]
  | false =>
    simp only [coderToJson, codeMapCopy, Bool.false_eq_true, if_false]
    have := readRange_null l (mem ++ chainCells .null mem.length l') [] ((mem ++ chainCells .null mem.length l' ++
      chainCells .null (mem ++ chainCells .null mem.length l').length l).length + 1) (by simp only [List.length_append, chainCells_length]; omega)
    rw [List.append_nil] at this
    rw [this, ok_bind, pure_M, hj]

/-- **C99 is false** when `end()` is a node of the copy itself: the iterator runs past the end of its own copy, for every map, even an empty one. -/
theorem C99_sentinel_false (l l' : List (Int × Int)) (mem : List Cell) (first : Bool) : coderToJson (F := F) .sentinel mem first l l' = .error .uninit := by
  have key : ∀ (pre post : List Cell) (stop fuel : Nat), l.length < fuel → (stop < pre.length ∨ pre.length + l.length < stop) →
      readRange (pre ++ chainCells (.node (pre.length + l.length)) pre.length l ++ ([.sentinel] ++ post)) (.node stop) fuel
        (chainBegin (.node (pre.length + l.length)) pre.length l) = .error .uninit := by
    intro pre post stop fuel hf hs
    obtain ⟨k, rfl⟩ := Nat.exists_eq_add_of_lt hf
    rw [show l.length + k + 1 = l.length + (k + 1) by omega, readRange_chain _ _ _ _ _ _ (fun a h => by cases h; omega)]
    have hg : (pre ++ chainCells (.node (pre.length + l.length)) pre.length l ++ ([.sentinel] ++ post))[pre.length + l.length]? = some .sentinel := by
      rw [List.getElem?_append_right (by simp [chainCells_length])]
      simp [chainCells_length]
    rw [readRange, if_neg (by intro h; cases h; omega)]
    simp only [hg]
    rfl
  cases first with
  | true =>
    simp only [coderToJson, codeMapCopy, if_true]
    simp only [List.append_assoc]
    have := key mem (chainCells (.node ((mem ++ (chainCells (.node (mem.length + l.length)) mem.length l ++ [Cell.sentinel])).length + l'.length))
      (mem ++ (chainCells (.node (mem.length + l.length)) mem.length l ++ [Cell.sentinel])).length l' ++ [Cell.sentinel])
      ((mem ++ (chainCells (.node (mem.length + l.length)) mem.length l ++ [Cell.sentinel])).length + l'.length)
    simp only [List.append_assoc] at this
    rw [this _ (by simp only [List.length_append, chainCells_length]; omega) (by simp only [List.length_append, chainCells_length, List.length_singleton]; omega)]
    rfl
  | false =>
    simp only [coderToJson, codeMapCopy, Bool.false_eq_true, if_false]
    have := key (mem ++ chainCells (.node (mem.length + l'.length)) mem.length l' ++ [Cell.sentinel]) [] (mem.length + l'.length)
    rw [List.append_nil] at this
    rw [this _ (by simp only [List.length_append, chainCells_length]; omega) (by simp only [List.length_append, chainCells_length, List.length_singleton]; omega)]
    rfl

/-- Two copies with different orders of the nodes, after `7 5 7 9` was read. -/
example : coderToJson (F := Rat) .null [.sentinel] false [(9, 2), (7, 0), (5, 1)] [(5, 1), (9, 2), (7, 0)] = .ok (.arr [.int 7, .int 5, .int 9]) ∧
    (coderAfter [[7, 5, 7, 9]]).codeMap = [(7, 0), (5, 1), (9, 2)] ∧
    coderToJson (F := Rat) .sentinel [] true [(7, 0)] [(7, 0)] = .error .uninit := ⟨rfl, by decide +kernel, rfl⟩

end VGram.Props
