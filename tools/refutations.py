"""For mutants of mutants.py: Lean code that derives False from the statement of a theorem in the edited model.
Run by refute.py.  EQUIVALENT lists the edits that change no behaviour a property speaks about."""

PRELUDE = r'''
theorem use {α β : Type} {x : M α} {a : α} (f : α → β) (b : β) (h : x = .ok a) (e : (x.bind fun a => (.ok (f a) : M β)) = .ok b) : f a = b := by
  subst h; injection e
def isOk {α : Type} : M α → Bool
  | .ok _ => true
  | .error _ => false
theorem noOk {α : Type} {x : M α} {a : α} (h : x = .ok a) (e : isOk x = false) : False := by subst h; cases e
theorem use2 {α β γ : Type} {x : M α} {a : α} {f : α → M β} {b : β} (g : β → γ) (v : γ) (h : x = .ok a) (k : f a = .ok b)
    (e : (x.bind fun a => (f a).bind fun b => (.ok (g b) : M γ)) = .ok v) : g b = v := by
  subst h
  change ((f a).bind fun b => (.ok (g b) : M γ)) = _ at e
  rw [k] at e
  injection e
theorem no2 {α β : Type} {x : M α} {a : α} {f : α → M β} {b : β} (h : x = .ok a) (k : f a = .ok b) (e : isOk (x.bind f) = false) : False := by
  subst h; exact noOk k e
theorem no3 {α β γ : Type} {x : M α} {a : α} {f : α → M β} {b : β} {g : β → M γ} {c : γ} (h : x = .ok a) (k : f a = .ok b) (l : g b = .ok c)
    (e : isOk ((x.bind f).bind g) = false) : False := by
  subst h
  change isOk ((f a).bind g) = false at e
  rw [k] at e
  exact noOk l e
theorem ok_of {α : Type} {x : M α} (h : isOk x = true) : ∃ a, x = .ok a := by
  cases x with
  | ok a => exact ⟨a, rfl⟩
  | error e => cases h
theorem spelt {words : List IntSeq} {ids : List Int} {seq : IntSeq} (h : Spells words ids seq) :
    (∀ i ∈ ids, 0 ≤ i ∧ i.toNat < words.length) ∧ seq = (ids.map fun i => words[i.toNat]?.getD []).flatten := by
  obtain ⟨ws, h1, rfl⟩ := h
  induction h1 with
  | nil => exact ⟨by simp, rfl⟩
  | cons a _ ih =>
    obtain ⟨a0, a1⟩ := a
    refine ⟨fun i hi => ?_, ?_⟩
    · rcases List.mem_cons.1 hi with rfl | hi
      · exact ⟨a0, (List.getElem?_eq_some_iff.1 a1).1⟩
      · exact ih.1 i hi
    · simp only [List.map_cons, List.flatten_cons, a1, Option.getD_some]
      rw [← ih.2]
theorem spell {words : List IntSeq} {ids : List Int} (h : ∀ i ∈ ids, 0 ≤ i ∧ i.toNat < words.length) :
    Spells words ids (ids.map fun i => words[i.toNat]?.getD []).flatten := by
  refine ⟨_, ?_, rfl⟩
  induction ids with
  | nil => exact .nil
  | cons i is ih =>
    refine .cons ⟨(h i (by simp)).1, ?_⟩ (ih fun j hj => h j (by simp [hj]))
    have := (h i (by simp)).2
    simp [List.getElem?_eq_getElem this]
'''

EQUIVALENT = {
    "D02": "the stack keeps more words, but the topmost prefix on it is the same one",
    "Q03": "a known entry is overwritten with itself",
    "Z77": "not proved, by reading: the loop from the right stops at the latest at the pivot itself, so a least pivot only makes the partition uneven; ten vectors tried were still sorted",
    "J07": "the outermost value of a saved file is an object, whose closing brace is still required",
}

REFUTE = {}

REFUTE["D01"] = r'''
example : False := by
  obtain ⟨p, h1, h2⟩ := C02_parent [[1], [1, 2]] ⟨[[1], [1, 2]], [-1, -1]⟩ (by decide +kernel) 1 [1, 2] (by decide)
  have := use id (-1) h1 (by decide +kernel)
  dsimp only [id] at this
  subst this
  rcases h2 with ⟨_, h⟩ | ⟨j, u, e, _⟩
  · exact h 0 [1] (by decide) (by decide) ⟨[2], rfl⟩
  · omega
'''
REFUTE["D03"] = r'''
example : False := by
  obtain ⟨d, h1, h2, _⟩ := C01_init_sorted_perm [[1], [1]]
  have := use (·.seqs) [[1]] h1 (by decide +kernel)
  rw [this] at h2
  simpa using h2.length_eq
'''
REFUTE["D04"] = r'''
example : False := by
  obtain ⟨d, h1, h2, _⟩ := C01_init_sorted_perm [[1], [1, 2]]
  exact noOk h1 (by decide +kernel)
'''
REFUTE["D05"] = r'''
example : False := by
  have h0 : IntDict.init [[1], [2], [3]] = .ok ⟨[[1], [2], [3]], [-1, -1, -1]⟩ := by decide +kernel
  rcases C05_search [[1], [2], [3]] (by decide) (by decide) _ h0 3 [] with ⟨i, h, _⟩ | ⟨h, _⟩
  · have := use (fun p => p.1.seqs.length) 4 h (by decide +kernel)
    simp at this
  · exact h 2 [3] ⟨by decide, by decide⟩ ⟨[], rfl⟩ trivial
'''
REFUTE["D06"] = r'''
example : False := by
  have h0 : IntDict.init [[1], [2]] = .ok ⟨[[1], [2]], [-1, -1]⟩ := by decide +kernel
  rcases C05_search [[1], [2]] (by decide) (by decide) _ h0 1 [5] with ⟨i, h, _⟩ | ⟨h, _⟩
  · have := use (fun p => p.1.seqs.length) 3 h (by decide +kernel)
    simp at this
  · exact h 0 [1] ⟨by decide, by decide⟩ ⟨[5], rfl⟩ trivial
'''
REFUTE["D07"] = r'''
example : False := by
  have h0 : IntDict.init [[1], [1, 2]] = .ok ⟨[[1], [1, 2]], [-1, 0]⟩ := by decide +kernel
  obtain ⟨i, h, h2⟩ := C04_search_excludes [[1], [1, 2]] (by decide) (by decide) _ h0 1 [2] [1]
  have := use (·.2) 1 h (by decide +kernel)
  try dsimp only at this
  subst this
  rcases h2 with ⟨w, _, _, h, _⟩ | ⟨h, _⟩
  · exact h (by simp)
  · omega
'''
REFUTE["D08"] = r'''
example : False := by
  have h0 : IntDict.init [[1]] = .ok ⟨[[1]], [-1]⟩ := by decide +kernel
  obtain ⟨i, h, h2⟩ := C04_search_excludes [[1]] (by decide) (by decide) _ h0 1 [2] [0]
  have := use (·.2) 0 h (by decide +kernel)
  try dsimp only at this
  subst this
  rcases h2 with ⟨w, _, _, h, _⟩ | ⟨h, _⟩
  · exact h (by simp)
  · omega
'''
REFUTE["D09"] = r'''
example : False := by
  have h0 : IntDict.init [[1]] = .ok ⟨[[1]], [-1]⟩ := by decide +kernel
  rcases C05_search [[1]] (by decide) (by decide) _ h0 3 [] with ⟨i, h, _⟩ | ⟨_, d', h, _, h2⟩
  · have := use (fun p => p.1.seqs.length) 2 h (by decide +kernel)
    simp at this
  · have := use (fun p => p.1.parents) [-1, 0] h (by decide +kernel)
    try dsimp only at this
    rw [this] at h2
    revert h2
    decide
'''
REFUTE["D10"] = r'''
example : False := by
  have h0 : IntDict.init [[1]] = .ok ⟨[[1]], [-1]⟩ := by decide +kernel
  rcases C05_search [[1]] (by decide) (by decide) _ h0 3 [] with ⟨i, h, _⟩ | ⟨_, d', h, _, h2⟩
  · have := use (fun p => p.1.seqs.length) 2 h (by decide +kernel)
    simp at this
  · have := use (fun p => p.2) 0 h (by decide +kernel)
    simp at this
'''
REFUTE["D11"] = r'''
example : False := by
  have h0 : IntDict.init [[1], [1, 2], [2]] = .ok ⟨[[1], [1, 2], [2]], [-1, 0, -1]⟩ := by decide +kernel
  obtain ⟨d', ids, h, h2⟩ := C07_greedy_lossless ratOps _ (.init _ (by decide) _ h0) [1, 2] []
  have := use (fun p => (p.1.seqs, p.2.1)) ([[1], [1, 2], [2]], [1, 2]) h (by decide +kernel)
  simp only [List.nil_append, Prod.mk.injEq] at this
  have h3 := (spelt h2).2
  rw [this.1, this.2] at h3
  revert h3
  decide
'''
REFUTE["D12"] = r'''
example : False := by
  have h0 : IntDict.init [[1]] = .ok ⟨[[1]], [-1]⟩ := by decide +kernel
  obtain ⟨d', ids, h, h2⟩ := C07_greedy_lossless ratOps _ (.init _ (by decide) _ h0) [1] []
  have := use (fun p => (p.1.seqs, p.2.1)) ([[1]], []) h (by decide +kernel)
  simp only [List.nil_append, Prod.mk.injEq] at this
  have h3 := (spelt h2).2
  rw [this.1, this.2] at h3
  revert h3
  decide
'''

def optimal(freqs, total, worse, better):
    """The parse of [1, 2] by [1], [1, 2], [2] is `worse` although `better` has a higher score."""
    return r'''
example : False := by
  have h0 : IntDict.init [[1], [1, 2], [2]] = .ok ⟨[[1], [1, 2], [2]], [-1, 0, -1]⟩ := by decide +kernel
  obtain ⟨ids, h, h2, h3⟩ := C10_weighted_optimal ratOps (Ext.scoreLaws _) (Ext.orderLaws _) [[1], [1, 2], [2]] (by decide) (by decide) _ h0 [1, 2]
    (by unfold Knows; decide) FREQS (by decide) TOTAL (by decide) []
  have := use (fun p => p.2.1) WORSE h (by decide +kernel)
  simp only [List.nil_append] at this
  subst this
  have h4 := h3 BETTER (spell (by decide))
  revert h4
  decide +kernel
'''.replace("FREQS", freqs).replace("TOTAL", total).replace("WORSE", worse).replace("BETTER", better)

REFUTE["D13"] = optimal("[0, 1, 100]", "0", "[1]", "[0, 2]")
REFUTE["D14"] = r'''
example : False := by
  have h0 : IntDict.init [[1], [1, 2], [2]] = .ok ⟨[[1], [1, 2], [2]], [-1, 0, -1]⟩ := by decide +kernel
  obtain ⟨d', ids, h, h2⟩ := C09_weighted_lossless ratOps (Ext.scoreLaws _) _ (.init _ (by decide) _ h0) [1, 2] [5, 0, 5] (by decide) 0 (by decide) []
  have := use (fun p => (p.1.seqs, p.2.1)) ([[1], [1, 2], [2]], [0, 0]) h (by decide +kernel)
  simp only [List.nil_append, Prod.mk.injEq] at this
  have h3 := (spelt h2).2
  rw [this.1, this.2] at h3
  revert h3
  decide
'''
REFUTE["D15"] = optimal("[5, 0, 5]", "0", "[1]", "[0, 2]")
REFUTE["D16"] = r'''
example : False := by
  have h0 : IntDict.init [[1], [2]] = .ok ⟨[[1], [2]], [-1, -1]⟩ := by decide +kernel
  obtain ⟨d', ids, h, h2⟩ := C09_weighted_lossless ratOps (Ext.scoreLaws _) _ (.init _ (by decide) _ h0) [1, 2] [0, 0] (by decide) 0 (by decide) []
  have := use (fun p => (p.1.seqs, p.2.1)) ([[1], [2]], [1, 0]) h (by decide +kernel)
  simp only [List.nil_append, Prod.mk.injEq] at this
  have h3 := (spelt h2).2
  rw [this.1, this.2] at h3
  revert h3
  decide
'''
REFUTE["D17"] = r'''
example : False := by
  have h0 : IntDict.init [[1], [2]] = .ok ⟨[[1], [2]], [-1, -1]⟩ := by decide +kernel
  obtain ⟨d', ids, h, h2⟩ := C09_weighted_lossless ratOps (Ext.scoreLaws _) _ (.init _ (by decide) _ h0) [1, 2] [0, 0] (by decide) 0 (by decide) [0]
  have := use (fun p => p.2) ([0, 0, 1], 2) h (by decide +kernel)
  simp only [Prod.mk.injEq] at this
  rw [this.1] at this
  revert this
  decide
'''
REFUTE["D18"] = optimal("[0, 5, 9]", "14", "[0, 2]", "[1]")

STAT = r'''
def val {α : Type} (d : α) : M α → α
  | .ok a => a
  | .error _ => d
theorem val_ok {α : Type} (d : α) {x : M α} (h : isOk x = true) : x = .ok (val d x) := by
  cases x with
  | ok a => rfl
  | error e => cases h
def inv : Env (Ext Rat) := Ext.env Rat fun x => 1 - 1 / x
abbrev st (words : List IntSeq) (fr : Option (List Int)) : StatDict (Ext Rat) := val (.new (.fin 1)) (StatDict.ofSeqs words (.fin 1) fr)
theorem st_ok {words : List IntSeq} {fr : Option (List Int)} (h : isOk (StatDict.ofSeqs words (Ext.fin (1 : Rat)) fr) = true) :
    StatDict.ofSeqs words (.fin 1) fr = .ok (st words fr) := val_ok _ h
theorem fresh {words : List IntSeq} {fr : Option (List Int)} (h0 : [] ∉ words) (hf : ∀ f ∈ fr.getD [], 0 ≤ f)
    (h : isOk (StatDict.ofSeqs words (Ext.fin (1 : Rat)) fr) = true) : FreshStat (st words fr) :=
  Or.inr ⟨words, .fin 1, fr, h0, by rintro l rfl; exact hf, st_ok h⟩
theorem foldl_same {α β : Type} {f g : α → β → α} : ∀ (l : List β) (a : α), (∀ a, ∀ b ∈ l, f a b = g a b) → l.foldl f a = l.foldl g a
  | [], _, _ => rfl
  | b :: l, a, h => by
    rw [List.foldl_cons, List.foldl_cons, h a b (by simp)]
    exact foldl_same l _ fun a c hc => h a c (by simp [hc])
theorem word_score (w : List Int) (t : Int) (n : Nat) (i : Int) : wordScore inv.ops w t n i =
    inv.ops.sub (inv.ops.log (inv.ops.ofInt (w.getD i.toNat 0 + 1))) (inv.ops.log (inv.ops.ofInt (t + (n : Int)))) := by
  unfold wordScore
  rw [List.getD_eq_getElem?_getD]
  cases h : w[i.toNat]? with
  | some f => rfl
  | none =>
    have : inv.ops.ofInt 0 = inv.ops.log (inv.ops.ofInt 1) := by decide +kernel
    rw [this]
    rfl
'''

def stat(body, need="C13_freq_accounting"):
    return "import Verif.Props.Learn\n" + STAT + body

def c13(words, fr, seqs, view, value, left, goal):
    """A component of C13 fails: `view` of the state and outputs is `value`."""
    return stat(r'''
example : False := by
  obtain ⟨s, outs, h, _, hf, hp, _, ht, _⟩ := C13_freq_accounting inv.ops (Ext.scoreLaws _) (st WORDS FR) (fresh (by decide) (by decide) (by decide +kernel)) SEQS
  have := use (fun p => (VIEW, p.2)) VALUE h (by decide +kernel)
  simp only [Prod.mk.injEq] at this
  obtain ⟨a, rfl⟩ := this
  exact absurd (a.symm.trans GOAL) (by decide)
'''.replace("WORDS", words).replace("FR", fr).replace("SEQS", seqs).replace("VIEW", view).replace("VALUE", value).replace("GOAL", goal))

REFUTE["S01"] = c13("[[1]]", "none", "[[1, 1]]", "p.1.freq 0", "(1, [[0, 0]])", "", "(hf 0)")
REFUTE["S03"] = c13("[[1]]", "none", "[[1, 1]]", "p.1.power", "(0, [[0, 0]])", "", "hp")
REFUTE["S04"] = c13("[[1], [1, 2], [2]]", "none", "[[1, 2]]", "p.1.totalChars", "(1, [[1]])", "", "ht")
REFUTE["S19"] = c13("[[1]]", "(some [3])", "[]", "p.1.power", "(3, [])", "", "hp")
REFUTE["S25"] = c13("[[1]]", "(some [3])", "[]", "p.1.freq 0", "(3, [])", "", "(hf 0)")

def c14(seqs, outs, a, b, got):
    return stat(r'''
example : False := by
  obtain ⟨s, outs, h, hp⟩ := C14_pair_freqs inv.ops (Ext.scoreLaws _) (st [[0], [1]] none) (fresh (by decide) (by decide) (by decide +kernel)) SEQS
  have := use (fun p => ((p.1.pairs.lookup (A, B)).getD 0, p.2)) (GOT, OUTS) h (by decide +kernel)
  simp only [Prod.mk.injEq] at this
  obtain ⟨a, rfl⟩ := this
  exact absurd (a.symm.trans (hp A B)) (by decide)
'''.replace("SEQS", seqs).replace("OUTS", outs).replace("A, B", a + ", " + b).replace("A B", a + " " + b).replace("GOT", got))

REFUTE["S05"] = c14("[[0, 1]]", "[[0, 1]]", "0", "1", "0")
REFUTE["S06"] = c14("[[0, 1]]", "[[0, 1]]", "0", "1", "0")
REFUTE["S07"] = c14("[[1]]", "[[1]]", "0", "1", "1")

def c65(prior, seqs, outs, got, better, weights):
    """Training parses [0, 1] with [0], [0, 1], [1] as `got` although `better` has a higher score."""
    return stat(r'''
example : False := by
  have hk : isOk (parseAll inv.ops (st [[0], [0, 1], [1]] (some PRIOR)) SEQS) = true := by decide +kernel
  have h := val_ok (st [] none, []) hk
  have e1 := use (fun p => (p.1.dict.seqs, p.2)) ([[0], [0, 1], [1]], OUTS) h (by decide +kernel)
  have e2 : isOk ((val (st [] none, []) (parseAll inv.ops (st [[0], [0, 1], [1]] (some PRIOR)) SEQS)).1.parse inv.ops [0, 1] []) = true := by decide +kernel
  have e3 : (val (st [] none, [], 0) ((val (st [] none, []) (parseAll inv.ops (st [[0], [0, 1], [1]] (some PRIOR)) SEQS)).1.parse inv.ops [0, 1] [])).2.1 = GOT := by decide +kernel
  generalize val (st [] none, []) (parseAll inv.ops (st [[0], [0, 1], [1]] (some PRIOR)) SEQS) = r at h e1 e2 e3
  obtain ⟨s, outs⟩ := r
  simp only [Prod.mk.injEq] at e1
  obtain ⟨e4, rfl⟩ := e1
  obtain ⟨s', ids, weights, h1, _, h2, h3, h4, h5⟩ := C65_training_parse inv.ops (Ext.scoreLaws _) (Ext.orderLaws _) PRIOR (st [[0], [0, 1], [1]] (some PRIOR))
    (Or.inr ⟨[[0], [0, 1], [1]], .fin 1, some PRIOR, by decide, by decide, rfl, st_ok (by decide +kernel)⟩) SEQS s _ h (by rw [e4]; decide) [0, 1] (by rw [e4]; unfold Knows; decide)
  try dsimp only at e3
  rw [h1] at e3
  dsimp only [val] at e3
  subst e3
  rw [e4] at h5
  have h6 := h5 BETTER (spell (by decide))
  have w0 : weights.getD 0 0 = _ := h3 0
  have w1 : weights.getD 1 0 = _ := h3 1
  have w2 : weights.getD 2 0 = _ := h3 2
  have score : ∀ (w v : List Int) (t : Int) ids, (∀ i ∈ ids, w.getD i.toNat 0 = v.getD i.toNat 0) →
      parseScore inv.ops w t ([[0], [0, 1], [1]] : List IntSeq).length ids = parseScore inv.ops v t 3 ids := by
    intro w v t ids hw
    unfold parseScore
    refine foldl_same ids _ fun a i hi => ?_
    rw [word_score, word_score, hw i hi]
    rfl
  have hw : ∀ i : Int, i = 0 ∨ i = 1 ∨ i = 2 → weights.getD i.toNat 0 = (WEIGHTS : List Int).getD i.toNat 0 := by
    rintro i (rfl | rfl | rfl)
    · exact w0.trans (by decide)
    · exact w1.trans (by decide)
    · exact w2.trans (by decide)
  rw [score weights WEIGHTS _ _ (fun i hi => hw i (by revert i; decide)), score weights WEIGHTS _ _ (fun i hi => hw i (by revert i; decide))] at h6
  revert h6
  decide +kernel
'''.replace("PRIOR", prior).replace("SEQS", seqs).replace("OUTS", outs).replace("GOT", got).replace("BETTER", better).replace("WEIGHTS", weights))

REFUTE["S02"] = c65("[0, 0, 0]", "[[0], [1], [0], [1], [0], [1]]", "[[0], [2], [0], [2], [0], [2]]", "[1]", "[0, 2]", "[3, 0, 3]")
REFUTE["S23"] = c65("[5, 0, 5]", "[]", "[]", "[1]", "[0, 2]", "[5, 0, 5]")
REFUTE["S24"] = c65("[2, 1, 2]", "[]", "[]", "[0, 2]", "[1]", "[2, 1, 2]")

EXPAND = r'''
  have hk : isOk (parseAll inv.ops (st WORDS FR) SEQS) = true := by decide +kernel
  have h := val_ok (st [] none, []) hk
  have e1 := use (fun p => (p.1.dict.seqs, p.2)) (DICT, OUTS) h (by decide +kernel)
  have e3 : (val ([], [], .nan) ((val (st [] none, []) (parseAll inv.ops (st WORDS FR) SEQS)).1.OP inv SLOTS)) = RESULT := by decide +kernel
  have e5 : (val (st [] none, []) (parseAll inv.ops (st WORDS FR) SEQS)).1.minProb = .fin 1 := by decide +kernel
  have e2 : isOk ((val (st [] none, []) (parseAll inv.ops (st WORDS FR) SEQS)).1.OP inv SLOTS) = true := by decide +kernel
  generalize val (st [] none, []) (parseAll inv.ops (st WORDS FR) SEQS) = r at h e1 e2 e3 e5
  obtain ⟨s, outs⟩ := r
  simp only [Prod.mk.injEq] at e1
  obtain ⟨e4, rfl⟩ := e1
'''

def expansion(words, fr, seqs, dict, outs, slots, result, pattern, end):
    """C16/C66/C69 for an expansion whose result is `result`."""
    head = {"C16": r'''
  obtain ⟨s', outs', h', hx⟩ := C16_expand inv (Ext.envLaws _) (Ext.scoreLaws _) (st WORDS FR) (fresh (by decide) (by decide) (by decide +kernel)) SEQS SLOTS
  rw [h] at h'
  cases h'
  obtain ⟨words, freqs, mp, h1, hnd, hold, hnew, hlen, _⟩ := hx (by rw [e4]; decide)
''', "C66": r'''
  obtain ⟨words, freqs, mp, h1, _, hf⟩ := C66_expand_freqs inv (Ext.envLaws _) (Ext.scoreLaws _) (st WORDS FR) (fresh (by decide) (by decide) (by decide +kernel)) SEQS SLOTS s _ h
    (by rw [e4]; decide)
''', "C69": r'''
  obtain ⟨words, freqs, mp, h1, hm⟩ := C69_expand_min inv (Ext.envLaws _) (Ext.scoreLaws _) (Ext.probLaws _) (st WORDS FR) (fresh (by decide) (by decide) (by decide +kernel)) SEQS SLOTS s _ h
    (by rw [e4]; decide) (Or.inr ⟨1, by decide +kernel⟩)
'''}[pattern]
    return stat(("\nexample : False := by" + EXPAND + head + r'''
  try dsimp only at e3
  rw [h1] at e3
  dsimp only [val] at e3
  cases e3
''' + end).replace("WORDS", words).replace("FR", fr).replace("SEQS", seqs).replace("DICT", dict).replace("OUTS", outs).replace("SLOTS", slots).replace("RESULT", result).replace("OP", "expand"))

PAIR = "[[0], [1]]", "none", "[[0, 1]]", "[[0], [1]]", "[[0, 1]]"
REFUTE["S08"] = expansion(*PAIR, "5", "([[0], [1], [1, 0]], [1, 1, 1], .fin 1)", "C16", r'''
  rw [e4] at hnew
  rcases hnew [1, 0] (by decide) with h | ⟨ids, hi, a, b, u, v, hab, hu, hv, he⟩
  · exact absurd h (by decide)
  · simp only [List.mem_singleton] at hi
    subst hi
    have := hab.eq_of_length rfl
    cases this
    obtain ⟨_, hu⟩ := hu
    obtain ⟨_, hv⟩ := hv
    simp at hu hv
    subst hu hv
    cases he
''')
REFUTE["S09"] = expansion(*PAIR, "0", "([[0], [1], [0, 1]], [1, 1, 1], .fin 1)", "C16", r'''
  rw [e4] at hlen
  exact absurd hlen (by decide)
''')
REFUTE["S18"] = expansion("[[0], [0, 1], [1]]", "(some [5, 0, 5])", "[[0, 1]]", "[[0], [0, 1], [1]]", "[[0, 2]]", "5",
    "([[0], [0, 1], [1], [0, 1]], [1, 0, 1, 1], .fin 1)", "C16", r'''
  exact absurd hnd (by decide)
''')
REFUTE["S11"] = expansion(*PAIR, "5", "([[0], [1], [0, 1]], [0, 0, 0], .fin 1)", "C66", r'''
  rw [e4] at hf
  rcases hf 0 [0] 0 rfl rfl with ⟨n, hn, he⟩ | ⟨h, _⟩
  · match n with
    | 0 => exact absurd he (by decide)
    | 1 => simp at hn
    | n + 2 => simp at hn
  · exact absurd h (by decide)
''')
REFUTE["S16"] = expansion("[[0], [1], [2]]", "none", "[[0, 1, 0, 1, 1, 1]]", "[[0], [1], [2]]", "[[0, 1, 0, 1, 1, 1]]", "5",
    "([[0], [1], [2], [0, 1], [1, 0], [1, 1]], [2, 4, 0, 2, 1, 2], .fin (2 / 5))", "C69", r'''
  rw [e4] at hm
  have hp : (st [[0], [1], [2]] none).minProb = .fin 1 := by decide +kernel
  rw [hp] at hm
  unfold LeastOf at hm
  revert hm
  decide +kernel
''')

GAM = r'''
def gam : Env (Ext Rat) := { inv with gammas := fun ps i => ps.getD i (.fin 1) }
def gamLaws : EnvLaws gam := { Ext.envLaws (fun x : Rat => 1 - 1 / x) with
  gamma := fun ps h i => by
    show ∃ y : Rat, 0 < y ∧ ps.getD i (.fin 1) = .fin y
    by_cases hi : i < ps.length
    · have := h (ps[i]) (List.getElem_mem hi)
      rw [List.getD_eq_getElem?_getD, List.getElem?_eq_getElem hi]
      exact this
    · rw [List.getD_eq_getElem?_getD, List.getElem?_eq_none (by omega)]
      exact ⟨1, by decide, rfl⟩ }
'''
REFUTE["S10"] = expansion(*PAIR, "0", "([[0, 1], [0]], [1, 1], .fin 1)", "C16", r'''
  rw [e4] at hold
  exact absurd (hold (by decide) [1] (by decide)) (by decide)
''')
REFUTE["S10"] = GAM.join("\nexample".join(["", x.replace("inv (Ext.envLaws _)", "gam gamLaws").replace("inv", "gam")]) if k else x
    for k, x in enumerate(REFUTE["S10"].split("\nexample")))

CLOSED = r'''
theorem closed {words : List IntSeq} {fr : Option (List Int)} (hn : words.Nodup) (h0 : [] ∉ words) (hf : ∀ f ∈ fr.getD [], 0 ≤ f)
    (hc : Closed words) (h : isOk (StatDict.ofSeqs words (Ext.fin (1 : Rat)) fr) = true) : FreshClosed (st words fr) :=
  Or.inr ⟨words, .fin 1, fr, hn, h0, hc, by rintro l rfl; exact hf, st_ok h⟩
theorem fits : FitsAll (st [[0], [0, 1], [1]] none).dict.seqs [[0, 1, 0]] [[0], [0, 1], [1]] :=
  .cons (.known (by decide +kernel) (.known (by decide +kernel) (.known (by decide +kernel) .nil))) .nil
theorem start : FreshClosed (st [[0], [0, 1], [1]] none) :=
  closed (by decide) (by decide) (by decide) (by unfold Closed Knows; decide) (by decide +kernel)
'''

def reduction(slots, theorem, binders, end, fails=False, result=""):
    return stat(CLOSED + r'''
example : False := by
  obtain ⟨BINDERS⟩ := THEOREM
  have hc : ((parseAll ratEnv.ops (st [[0], [0, 1], [1]] none) [[0, 1, 0]]).bind fun p => p.1.reduce ratEnv SLOTS) = .ok (words, freqs, mp) := by
    rw [h]; exact h1
'''.replace("BINDERS", binders).replace("THEOREM", theorem + " ratEnv (Ext.envLaws _) (Ext.scoreLaws _) " +
        ("(Ext.probLaws _) " if "C69" in theorem else "") + "_ start [[0, 1, 0]] [[0], [0, 1], [1]] fits SLOTS" +
        (" (Or.inr ⟨1, by decide +kernel⟩)" if "C69" in theorem else "")).replace("SLOTS", slots) + (r'''
  exact noOk hc (by decide +kernel)
''' if fails else r'''
  have e := use id RESULT hc (by decide +kernel)
  simp only [id] at e
  cases e
'''.replace("RESULT", result) + end))

ALL17 = "s, outs, words, freqs, mp, h, hd, h1, hn, hin, hall, hlow, hlen, hfl, hpos, huse"
REFUTE["S14"] = reduction("1", "C17_reduce", ALL17, "", True)
REFUTE["S13"] = reduction("0", "C17_reduce", ALL17, "  exact absurd (hlen (by decide)) (by decide)\n", False,
    "([[0], [1], [0, 1]], [1, 0, 1], .fin (1 / 3))")
REFUTE["S22"] = reduction("0", "C17_reduce", ALL17, "  exact absurd (hall (by decide) 0 (by decide)) (by decide)\n", False,
    "([], [], .fin (1 / 3))")
REFUTE["S12"] = reduction("0", "C66_reduce_freqs", "s, outs, words, freqs, mp, h, hd, h1, hfl, hfr", r'''
  have := use (fun p => p.2) [[1, 0]] h (by decide +kernel)
  try dsimp only at this
  subst this
  obtain ⟨n, hn, he⟩ := hfr 0 [0] 0 rfl rfl
  match n with
  | 0 => exact absurd he (by decide)
  | 1 => simp at hn
  | 2 => simp at hn
  | n + 3 => simp at hn
''', False, "([[0], [1]], [0, 0], .fin (1 / 3))")
REFUTE["S15"] = reduction("1", "C69_reduce_min", "s, outs, words, freqs, mp, h, h1, hm", r'''
  have hp : (st [[0], [0, 1], [1]] none).minProb = .fin 1 := by decide +kernel
  rw [hp] at hm
  unfold LeastOf at hm
  revert hm
  decide +kernel
''', False, "([[0], [1], [0, 1]], [1, 0, 1], .fin (2 / 5))")


REFUTE["K01"] = r'''
example : False := absurd (C15_unpack_pack 1#32 0x10000#32 (by decide) (by decide)) (by decide +kernel)
'''
REFUTE["K02"] = r'''
example : False := absurd (C15_unpack_pack 0#32 0x10000#32 (by decide) (by decide)) (by decide +kernel)
'''
REFUTE["Q01"] = r'''
example : False := absurd ((C28_codes_first_occurrence [[7]] 0 7).2 (by decide +kernel)) (by decide +kernel)
'''
REFUTE["Q02"] = r'''
example : False := absurd (C27_decode_encode [] [] [7]).2 (by decide +kernel)
'''
REFUTE["Q04"] = r'''
example : False := absurd (C29_immutable [[7]] [8]) (by decide +kernel)
'''
REFUTE["Q05"] = r'''
example : False := absurd ((C30_decode_throws [] [0]).2 ⟨0, by simp, by rintro ⟨x, h⟩; cases h⟩) (by decide +kernel)
'''
REFUTE["T01"] = r'''
example : False := absurd (C32_only_lower_digits ['A'] 'A' (by decide +kernel)) (by decide +kernel)
'''
REFUTE["T02"] = r'''
example : False := absurd (C32_normalize ['z']) (by decide +kernel)
'''
REFUTE["T03"] = r'''
example : False := absurd (C35_words_join ['a']) (by decide +kernel)
'''
REFUTE["T04"] = r'''
example : False := absurd (C35_words_shape [' ']) (by decide +kernel)
'''
REFUTE["T05"] = r'''
example : False := absurd C33_lhs_first_false (by decide +kernel)
'''
REFUTE["T06"] = r'''
example : False := absurd (C33_decode_transform_partial [] [] ['a', 'b']) (by decide +kernel)
'''
REFUTE["N01"] = r'''
example : False := by
  obtain ⟨s, h1, nums, h2, h3⟩ := C57_to_string_partial [1, 2] (by decide) (by decide)
  have e1 := use id "(12)".toList h1 (by decide +kernel)
  dsimp only [id] at e1
  match h2 with
  | .cons (b := a) _ (.cons (b := b) _ .nil) =>
    have : ' ' ∈ s := by rw [h3]; simp [List.intercalate]
    rw [e1] at this
    exact absurd this (by decide)
'''
REFUTE["N02"] = r'''
example : False := absurd (C58_fresh_false 7 [] []) (by decide +kernel)
'''


LOSSLESS = r"""
example : False := by
  obtain ⟨m, h1, h2⟩ := C37_parse_lossless quickEnv (Ext.envLaws _) (Ext.scoreLaws _) (Stream.new quickEnv.ops 3) [] [.accept [7], .update]
    ⟨false, 3, .fresh (by decide), .accept (.update .nil), by decide⟩
  obtain ⟨m', ids, ws', p1, p2, p3⟩ := h2 [7] (by simp [accepted])
"""
REFUTE["R01"] = LOSSLESS + r"""
  have e := use2 (f := fun m => m.parse quickEnv.ops [7]) (fun p => p.2) [] h1 p1 (by decide +kernel)
  try dsimp only at e
  subst e
  exact absurd (spelt p3).2 (by simp)
"""
REFUTE["R02"] = LOSSLESS + r"""
  exact no3 (f := fun m => m.parse quickEnv.ops [7]) h1 p1 (g := fun p => p.1.alphabet) p2 (by decide +kernel)
"""
REFUTE["R07"] = r"""
example : False := by
  have h := congrArg isOk (C44_uninterrupted quickEnv ⟨fun _ => 1, fun _ => false⟩ (IntVGram.new quickEnv.ops 3 1) [[5]] rfl fun _ _ => rfl)
  exact absurd h (by decide +kernel)
"""
INTERRUPTED = r"""
example : False := by
  obtain ⟨_, _, rfl, rfl, _, h, _⟩ := C44_interrupted quickEnv (stopAt 0) (IntVGram.new quickEnv.ops 3 1) [[5]] 0 rfl (by decide)
    (fun j hj => absurd hj (by omega)) (by decide)
  have e := congrArg (fun x => x.toOption.map fun p => p.2) h
  exact absurd e (by decide +kernel)
"""
REFUTE["R08"] = INTERRUPTED
REFUTE["R09"] = INTERRUPTED
def recomputed(rest): return r"""
example : False := by
  obtain ⟨s, ws, h1, h2, h3⟩ := C46_recomputed_freqs quickEnv (Ext.envLaws _) (Ext.scoreLaws _) 3 1 (by decide) (by decide) (stopAt 100) [[5], [5], [5]] (by decide)
    (fun j hj => by simp [stopAt]; simp at hj; omega)
  have e := use2 id [[5]] h1 h2 (by decide +kernel)
  dsimp only [id] at e
  subst e
  obtain ⟨m, b, prior, outs, h4, _, _, _, h5, _, _, h6, h7⟩ := h3 (by decide)
""" + rest
REFUTE["R10"] = recomputed(r"""
  have e := use (fun p => p.1.freqs.sum) 1 h4 (by decide +kernel)
  try dsimp only at e
  rw [e] at h7
  match outs, h5 with
  | [a, b, c], .cons ha (.cons hb (.cons hc .nil)) =>
    have h8 : 1 = a.length + (b.length + c.length) := by
      have h8 : (1 : Int) = a.length + (b.length + c.length) := by simpa using h7
      omega
    have : a ≠ [] := fun h => absurd (spelt ha.1).2 (by simp [h])
    have : b ≠ [] := fun h => absurd (spelt hb.1).2 (by simp [h])
    have := List.length_pos_iff.2 ‹a ≠ []›
    have := List.length_pos_iff.2 ‹b ≠ []›
    omega
""")
REFUTE["R14"] = recomputed(r"""
  have e := use (fun p => (p.1.totalFreqs, p.1.freqs.sum)) (1, 3) h4 (by decide +kernel)
  injection e with e1 e2
  rw [e1, e2] at h6
  exact absurd h6 (by decide)
""")
def fitted(rest, seqs="[[5]]"): return r"""
example : False := by
  obtain ⟨⟨m, r⟩, h⟩ := ok_of (x := (IntVGram.new quickEnv.ops 3 1).fit quickEnv (stopAt 100) SEQS) (by decide +kernel)
  have hr := use (fun p => p.2) true h (by decide +kernel)
  try dsimp only at hr
  subst hr
  have R : Ready quickEnv m _ := .fit (by decide) (by decide) (by decide) (fun j hj => by simp [stopAt]; simp at hj; omega) h
""".replace("SEQS", seqs) + rest
REFUTE["R11"] = fitted(r"""
  obtain ⟨ws, outs, _, h1, h2⟩ := C47_transform_interrupted quickEnv (Ext.envLaws _) (Ext.scoreLaws _) m _ R (stopAt 0) [[5]] 0 (by decide)
    (fun j hj => absurd hj (by omega)) (by decide)
  have e := use2 (f := fun p => p.1.transform quickEnv.ops (stopAt 0) [[5]]) (fun p => p.2) [] h h1 (by decide +kernel)
  try dsimp only at e
  subst e
  exact absurd h2.length_eq (by decide)
""")
REFUTE["R12"] = fitted(r"""
  obtain ⟨outs, strs, _, h1, _, h2⟩ := C47_transform_to_string quickEnv (Ext.envLaws _) (Ext.scoreLaws _) m _ R (stopAt 100) [[6]] (fun j hj => by simp [stopAt]; simp at hj; omega)
  have e := use2 (f := fun p => p.1.transformToString quickEnv.ops (stopAt 100) [[6]]) (fun p => p.2) [[]] h h1 (by decide +kernel)
  try dsimp only at e
  subst e
  match outs, h2 with
  | [a], .cons h3 .nil =>
    rcases h3 with ⟨_, h4⟩ | ⟨h4, nums, h5, h6⟩
    · cases h4
    · match a, nums, h5 with
      | [], _, _ => exact h4 rfl
      | _ :: _, [], h => cases h
      | _ :: _, _ :: _, _ => simp at h6
""")
REFUTE["R13"] = r"""
example : False := by
  obtain ⟨s, h1, nums, h2, h3⟩ := C57_to_string_partial [10] (by decide) (by decide)
  have e1 := use id "(:)".toList h1 (by decide +kernel)
  dsimp only [id] at e1
  match nums, h2 with
  | [a], .cons ⟨t, n, h4, h5⟩ .nil =>
    have ha : a = [':'] := by rw [e1] at h3; exact List.append_cancel_right (bs := [')']) (by simpa [List.intercalate] using h3.symm)
    rcases h5 with ⟨rfl, _⟩ | ⟨h5, _⟩
    · exact absurd (h4.digits ':' (by rw [ha]; simp)) (by unfold IsDigit; decide)
    · rw [ha] at h5; simp at h5
"""
REFUTE["R15"] = fitted(r"""
  have h1 := C45_second_fit quickEnv (stopAt 100) _ m [[5]] h (stopAt 100) [[5]]
  exact absurd (use2 (f := fun p => p.1.fit quickEnv (stopAt 100) [[5]]) (fun p => p.2) false h h1 (by decide +kernel)) (by simp)
""")
REFUTE["V01"] = r"""
example : False := by
  obtain ⟨m, h⟩ := (C50_constructor quickEnv.ops 3 false true).2 (by decide)
  exact noOk h (by decide +kernel)
"""
def text(texts, rest): return r"""
example : False := by
  obtain ⟨m, h⟩ := ok_of (x := (StringVGram.new quickEnv.ops 3 1 .char).fit quickEnv .rhsFirst (stopAt 100) [['a']]) (by decide +kernel)
  have R : TextModel quickEnv .char m _ := .fit (by decide) (by decide) (by decide) (fun j hj => by simp [stopAt]; simp at hj; omega) h
  obtain ⟨m', ws, outs, h1, _, h2, h3, _, h4, h5, h6⟩ := C49_transform_tokens_partial quickEnv (Ext.envLaws _) (Ext.scoreLaws _) .char m _ R (stopAt 100) TEXTS
    (fun j hj => by simp [stopAt]; simp at hj; omega)
""".replace("TEXTS", texts) + rest
REFUTE["V03"] = text("[['a']]", r"""
  have e := use2 (f := fun m => m.transform quickEnv.ops .rhsFirst (stopAt 100) [['a']]) (fun p => p.2) [[' ', 'a']] h h1 (by decide +kernel)
  try dsimp only at e
  subst e
  have e := use2 (f := fun m => m.alphabet) id [['a']] h h2 (by decide +kernel)
  dsimp only [id] at e
  subst e
  cases h4 with
  | cons h7 _ =>
    obtain ⟨ps, h8, h9, _⟩ := h7
    match ps, h8, h9 with
    | [], h8, _ => exact absurd h8 (by decide)
    | [p], h8, h9 => simp at h9; rw [h9.2] at h8; exact absurd h8 (by decide)
    | p :: q :: r, h8, h9 => have := (h9 p (by simp)).2; simp at this; rw [this] at h8; simp [joinSp] at h8
""")
REFUTE["V04"] = text("[['b']]", r"""
  have e := use2 (f := fun m => m.transform quickEnv.ops .rhsFirst (stopAt 100) [['b']]) (fun p => (p.1.tok.forward.get? ['b']).isSome) false h h1 (by decide +kernel)
  try dsimp only at e
  have := (h6 ['b']).2 (Or.inr ⟨['b'], by simp, by decide +kernel⟩)
  rw [e] at this
  cases this
""")

REFUTE["V02"] = r"""
example : False := by
  obtain ⟨m0, h0⟩ := ok_of (x := StringStream.new quickEnv.ops 5 false false) (by decide +kernel)
  obtain ⟨m, m', ws, ps, h1, h2, _, _, h3, _⟩ := C50_parse_lossless_partial quickEnv (Ext.envLaws _) (Ext.scoreLaws _) 5 (by decide) false false m0 h0
    [.accept ['a'], .update, .parse ['b'], .accept ['c'], .update] (.accept (.update (.parse (.accept (.update .nil))))) .char rfl (by decide +kernel) ['c']
  have h4 : ((StringStream.new quickEnv.ops 5 false false).bind fun m0 => textRun quickEnv .rhsFirst m0 [.accept ['a'], .update, .parse ['b'], .accept ['c'], .update]) = .ok m := by
    rw [h0]; exact h1
  have e := use2 (f := fun m => m.parse quickEnv.ops .rhsFirst ['c']) (fun p => p.2) [['b']] h4 h2 (by decide +kernel)
  try dsimp only at e
  subst e
  exact absurd h3 (by decide +kernel)
"""

def best(): return r"""
def cube : Env (Ext Rat) := Ext.env Rat (fun x => if x < 1 then (x - 1) / 30 else (Nat.log2 (x * x * x).floor.toNat : Rat))
example : False := by
  obtain ⟨m, ws, h1, h2, _, h3⟩ := C73_best_score cube (Ext.envLaws _) (Ext.scoreLaws _) (Ext.orderLaws _) (Stream.new cube.ops 3) []
    [.accept [7, 8, 7, 8, 7, 8], .update, .accept [7, 8, 7, 8, 7, 8], .accept [8, 7, 8, 7, 8, 7, 7, 7, 8, 8],
      .accept [8, 7, 8, 7, 8, 7, 7, 7, 8, 8], .update]
    ⟨false, 3, .fresh (by decide), .accept (.update (.accept (.accept (.accept (.update .nil))))), by decide⟩
    (fun _ _ _ _ _ _ _ _ _ _ _ _ => trivial)
  have e1 := use2 (f := fun m => m.alphabet) id [[7], [7, 8], [8], [8, 7]] h1 h2 (by decide +kernel)
  dsimp only [id] at e1
  subst e1
  have e2 := use (fun m => m.freqs) [3, 3, 1, 1, 1, 3] h1 (by decide +kernel)
  try dsimp only at e2
  obtain ⟨ids, h4, _, h5⟩ := h3 [8, 7, 8, 7] (by decide)
  have e3 := use2 (f := fun m => m.parse cube.ops [8, 7, 8, 7]) (fun p => p.2) [2, 1, 0] h1 h4 (by decide +kernel)
  try dsimp only at e3
  subst e3
  have h6 := h5 [3, 3] (spell (words := [[7], [7, 8], [8], [8, 7]]) (ids := [3, 3]) (by decide))
  rw [e2] at h6
  exact absurd h6 (by decide +kernel)
"""
REFUTE["R03"] = best()
REFUTE["R04"] = best()
SIX = "[7, 8, 7, 8, 7, 8]"
REFUTE["R05"] = r"""
example : False := by
  obtain ⟨m, m', n, j, s, ws, h1, h2, h3, h4, h5, _⟩ := C78_update_shows quickEnv (Ext.envLaws _) (Ext.scoreLaws _) (Stream.new quickEnv.ops 3) []
    [.accept [7, 8, 7, 8, 7, 8], .update, .accept [7, 8, 7, 8, 7, 8]] true ⟨false, 3, .fresh (by decide), .accept (.update (.accept .nil)), by decide⟩
  have e1 := use (fun m => rebuilds m) 2 h1 (by decide +kernel)
  have e2 := use2 (f := fun m => m.updateDict quickEnv.ops) (fun m => m.dict) (.stat 1) h1 h2 (by decide +kernel)
  try dsimp only at e1 e2
  rw [e2] at h5
  rw [e1] at h3
  subst h3
  simp only [show ¬ (2 = 1) by decide, false_and, if_false] at h4
  injection h5 with h5
  omega
"""
REFUTE["R06"] = r"""
example : False := by
  obtain ⟨m1, h1⟩ := ok_of (x := run quickEnv (Stream.new quickEnv.ops 2) [.accept [7, 8]]) (by decide +kernel)
  obtain ⟨m2, h⟩ := ok_of (x := (run quickEnv (Stream.new quickEnv.ops 2) [.accept [7, 8]]).bind fun m => run quickEnv m [.accept [7, 8], .accept [7, 8], .accept [7, 8]]) (by decide +kernel)
  have h2 := h
  rw [h1] at h2
  have e1 := use rebuilds 1 h1 (by decide +kernel)
  have e2 := use rebuilds 4 h (by decide +kernel)
  obtain ⟨m, ws, h3, h4, h5⟩ := C72_size_respected quickEnv (Ext.envLaws _) (Ext.scoreLaws _) 2 [.accept [7, 8]] [.accept [7, 8], .accept [7, 8], .accept [7, 8]] false
    ⟨false, 2, .fresh (by decide), .accept (.accept (.accept (.accept .nil))), by decide⟩ (by decide) m1 m2 h1 h2 (by omega)
  have h6 := use2 (x := ((run quickEnv (Stream.new quickEnv.ops 2) [.accept [7, 8]]).bind fun m => run quickEnv m [.accept [7, 8], .accept [7, 8], .accept [7, 8]]).bind fun m => m.updateDict quickEnv.ops)
    (f := fun m => m.alphabet) (fun w => w.length) 3 (by rw [h]; exact h3) h4 (by decide +kernel)
  try dsimp only at h6
  omega
"""
REFUTE["R16"] = r"""
def inv : Env (Ext Rat) := Ext.env Rat fun x => 1 - 1 / x
theorem cnt (ids : List Int) (h : ∀ i ∈ ids, 0 ≤ i ∧ i.toNat < [[(7 : Int)], [8]].length) :
    ((ids.map fun i => [[(7 : Int)], [8]][i.toNat]?.getD []).flatten).count 7 = ids.count 0 := by
  induction ids with
  | nil => rfl
  | cons i is ih =>
    obtain ⟨h1, h2⟩ := h i (by simp)
    have ih := ih fun j hj => h j (by simp [hj])
    simp only [List.length_cons, List.length_nil] at h2
    rw [List.map_cons, List.flatten_cons, List.count_append, ih]
    rcases (show i = 0 ∨ i = 1 by omega) with rfl | rfl
    · simp; omega
    · simp
example : False := by
  obtain ⟨m, m', ws, h1, h2, h3, h4, j, outs, h5, h6, h7⟩ := C40_first_entries_partial inv (Ext.envLaws _) (Ext.scoreLaws _) 3 [.accept [7, 7, 8]]
    ⟨false, 3, .fresh (by decide), .accept .nil, by decide⟩
  have e1 := use2 (f := fun m => m.updateDict inv.ops) (fun m => (m.dict, m.freqs)) (.stat 0, [1, 2]) h1 h2 (by decide +kernel)
  injection e1 with e1 e2
  rw [e1] at h5
  cases h5
  have e3 := use2 (x := (run inv (Stream.new inv.ops 3) [.accept [7, 7, 8]]).bind fun m => m.updateDict inv.ops) (f := fun m => m.alphabet) id [[7], [8]]
    (by rw [h1]; exact h2) h3 (by decide +kernel)
  dsimp only [id] at e3
  subst e3
  rw [show readAt inv 0 (Stream.new inv.ops 3) [.accept [7, 7, 8]] = [[7, 7, 8]] by decide +kernel] at h6
  have h8 := h7 0 (by decide)
  rw [e2] at h8
  match outs, h6 with
  | [ids], .cons h9 .nil =>
    have h10 := cnt ids (spelt h9).1
    rw [← (spelt h9).2] at h10
    simp at h8 h10
    omega
"""
REFUTE["B09"] = r"""
example : False := by
  obtain ⟨m, m', ws, h1, h2, h3, h4⟩ := C40_update_appends quickEnv (Ext.envLaws _) (Ext.scoreLaws _) (Stream.new quickEnv.ops 3) []
    [.accept [7, 8, 7, 8, 7, 8], .update, .accept [7, 8, 7, 8, 7, 8]] true ⟨false, 3, .fresh (by decide), .accept (.update (.accept .nil)), by decide⟩
  have e1 := use (fun m => m.freqs.length) 4 h1 (by decide +kernel)
  have e2 := use2 (f := fun m => m.updateDict quickEnv.ops) (fun m => m.freqs.length) 3 h1 h2 (by decide +kernel)
  try dsimp only at e1 e2
  rcases h4 with rfl | ⟨fresh, h4, _⟩
  · omega
  · rw [h4, List.length_append] at e2
    omega
"""
REFUTE["B13"] = r"""
example : False := by
  obtain ⟨m, m', ws, h1, h2, h3, h4, j, outs, h5, h6, h7⟩ := C40_first_entries_partial quickEnv (Ext.envLaws _) (Ext.scoreLaws _) 3 [.accept [7, 8, 7, 8, 7, 8]]
    ⟨false, 3, .fresh (by decide), .accept .nil, by decide⟩
  have e1 := use2 (f := fun m => m.updateDict quickEnv.ops) (fun m => (m.dict, m.freqs)) (.stat 1, [3, 3, 3, 2]) h1 h2 (by decide +kernel)
  injection e1 with e1 e2
  rw [e1] at h5
  cases h5
  rw [show readAt quickEnv 1 (Stream.new quickEnv.ops 3) [.accept [7, 8, 7, 8, 7, 8]] = [] by decide +kernel] at h6
  cases h6
  rw [e2] at h4
  have h8 := h7 0 (by rw [← h4]; decide)
  rw [e2] at h8
  exact absurd h8 (by decide)
"""
REFUTE["B14"] = r"""
example : False := by
  obtain ⟨m, m', n, j, s, ws, h1, h2, h3, h4, h5, h6, h7, h8, _⟩ := C78_update_shows quickEnv (Ext.envLaws _) (Ext.scoreLaws _) (Stream.new quickEnv.ops 3) []
    [.accept [7, 8, 7, 8, 7, 8], .accept [7, 8, 7, 8, 7, 8], .accept [7, 8, 7, 8, 7, 8]] false
    ⟨false, 3, .fresh (by decide), .accept (.accept (.accept .nil)), by decide⟩
  have e1 := use2 (f := fun m => m.updateDict quickEnv.ops) (fun m => m.dict) (.stat 2) h1 h2 (by decide +kernel)
  have e2 := use (fun m => (m.builder.stats[2]?).map fun s => s.dict.seqs.length) (some 3) h1 (by decide +kernel)
  have e3 := use2 (x := (run quickEnv (Stream.new quickEnv.ops 3) [.accept [7, 8, 7, 8, 7, 8], .accept [7, 8, 7, 8, 7, 8], .accept [7, 8, 7, 8, 7, 8]]).bind
    fun m => m.updateDict quickEnv.ops) (f := fun m => m.alphabet) (fun w => w.length) 4 (by rw [h1]; exact h2) h7 (by decide +kernel)
  try dsimp only at e1 e2 e3
  rw [e1] at h5
  injection h5 with h5
  subst h5
  rw [h6] at e2
  injection e2 with e2
  change s.dict.seqs.length = 3 at e2
  have := h8.length_eq
  omega
"""
def stable(first, second, before, after): return r"""
abbrev start : M (Builder (Ext Rat)) := train quickEnv (Builder.new quickEnv.ops 3) FIRST
example : False := by
  obtain ⟨b, h1⟩ := ok_of (x := start) (by decide +kernel)
  obtain ⟨b', h2⟩ := ok_of (x := start.bind fun b => train quickEnv b SECOND) (by decide +kernel)
  have h3 := h2
  rw [h1] at h3
  have e1 := use (fun b => b.result) (some 2) h1 (by decide +kernel)
  have e2 := use (fun b => (b.stats[2]?).map fun s => s.dict.seqs) (some BEFORE) h1 (by decide +kernel)
  have e3 := use (fun b => (b.stats[2]?).map fun s => s.dict.seqs) (some AFTER) h2 (by decide +kernel)
  try dsimp only at e1 e2 e3
  obtain ⟨s, hs, hs'⟩ := Option.map_eq_some_iff.1 e2
  obtain ⟨s', h4, h5, _⟩ := C23_published_ids_stable quickEnv b b' SECOND h3 2 e1 s hs
  rw [h4] at e3
  injection e3 with e3
  change s'.dict.seqs = _ at e3
  have h6 := h5 2 [1] (by rw [hs']; rfl)
  rw [e3] at h6
  exact absurd h6 (by decide)
""".replace("FIRST", first).replace("SECOND", second).replace("BEFORE", before).replace("AFTER", after)
REFUTE["B03"] = stable("[.accept [0, 1], .accept [0, 1, 2]]", "[.accept [0, 2]]", "[[0], [0, 1], [1], [2]]", "[[0], [0, 1], [0, 2], [1], [2]]")
REFUTE["B15"] = stable("[.accept [0, 1, 0, 1, 0, 1], .accept [0, 1, 0, 1, 0, 1], .accept [0, 1, 0, 1, 0, 1]]", "[.accept [0, 1, 0, 1, 0, 1]]",
    "[[0], [0, 1], [1]]", "[[0], [0, 1], [0, 1, 0, 1], [1]]")
REFUTE["B04"] = r"""
example : False := by
  have k : Arrive 2 [0, 1] 2 := .known (by decide) (by decide) (.known (by decide) (by decide) .nil)
  obtain ⟨b, h⟩ := ok_of (x := train quickEnv (Builder.new quickEnv.ops 1) [.accept [0, 1], .accept [0, 1], .accept [0, 1], .accept [0, 1]]) (by decide +kernel)
  obtain ⟨s, h1, h2, _⟩ := C21_exactly_seen quickEnv (Ext.envLaws _) (Ext.scoreLaws _) 1 2 [.accept [0, 1], .accept [0, 1], .accept [0, 1], .accept [0, 1]]
    (.accept (.fresh (.fresh .nil)) (.accept k (.accept k (.accept k .nil)))) (by decide) (by decide) b h
  have e := use2 (f := fun b => b.cur) (fun s => s.dict.seqs) [[0]] h h1 (by decide +kernel)
  try dsimp only at e
  have h3 := (h2 1).2 ⟨[0, 1], by simp, by simp⟩
  rw [e] at h3
  exact absurd h3 (by decide)
"""
REFUTE["B05"] = r"""
example : False := by
  obtain ⟨b2, t2⟩ := ok_of (x := act quickEnv (Builder.new quickEnv.ops 2) (.accept [0, 1, 2])) (by decide +kernel)
  obtain ⟨b4, t⟩ := ok_of (x := (act quickEnv (Builder.new quickEnv.ops 2) (.accept [0, 1, 2])).bind fun b => act quickEnv b (.accept [0, 1])) (by decide +kernel)
  have t4 := t
  rw [t2] at t4
  have e1 := use (fun b => (b.result, b.stats.length)) (none, 2) t2 (by decide +kernel)
  have e2 := use (fun b => (b.result, (b.stats[2]?).map fun s => s.dict.seqs.length)) (some 2, some 4) t (by decide +kernel)
  injection e1 with e1 e1'
  injection e2 with e2 e2'
  obtain ⟨i, s, h1, h2, h3⟩ := C22_published_size_partial quickEnv (Ext.envLaws _) (Ext.scoreLaws _) (Builder.new quickEnv.ops 2) _ b2 b2 b4 0 0 3 3 3 [] []
    (.accept [0, 1, 2]) (.accept [0, 1]) (.fresh (by decide)) .nil (.accept (.fresh (.fresh (.fresh .nil))) .nil) .nil
    (.accept (.known (by decide) (by decide) (.known (by decide) (by decide) .nil)) .nil) (by decide) rfl t2 (by rw [e1']; decide) rfl t4 (by rw [e1, e2]; simp)
  rw [e2] at h1
  cases h1
  rw [h2] at e2'
  injection e2' with e2'
  change s.dict.seqs.length = 4 at e2'
  change ((_ : Nat) : Int) ≤ 2 + 1 + ((3 : Int) - 3) at h3
  omega
"""
def steps(acts, rest): return r"""
example : False := by
  obtain ⟨b, h⟩ := ok_of (x := train quickEnv (Builder.new quickEnv.ops 3) ACTS) (by decide +kernel)
  obtain ⟨n, T⟩ := C24_alternation quickEnv _ b (.fresh 3) ACTS h
  generalize hl : alternate .expansion n = l at T
""".replace("ACTS", acts) + rest
REFUTE["B02"] = steps("[.accept [0, 1]]", r"""
  cases T with
  | cons h1 h2 h3 =>
    have e := use (fun b => (b.stats.length, b.result)) (2, some 1) h1 (by decide +kernel)
    injection e with e1 e2
    cases h3
    cases h2 with
    | quiet a _ _ => rw [e1] at a; exact absurd a (by decide)
    | expansion _ _ _ _ _ a => rw [e2] at a; exact absurd a (by simp [Builder.new])
    | reduction _ _ _ _ _ _ =>
      match n, hl with
      | 0, h => cases h
      | n + 1, h => cases h
""")
REFUTE["B01"] = steps("[.accept [0, 1], .accept [0, 1]]", r"""
  cases T with
  | cons h1 h2 h3 =>
    have e := use (fun b => (b.stats.length, b.result)) (2, none) h1 (by decide +kernel)
    injection e with e1 e2
    cases h3 with
    | cons k1 k2 k3 =>
      have f := use2 (f := fun b => act quickEnv b (.accept [0, 1])) (fun b => (b.stats.length, b.result)) (3, none) h1 k1 (by decide +kernel)
      injection f with f1 f2
      cases k3
      cases h2 with
      | quiet a _ _ => rw [e1] at a; exact absurd a (by decide)
      | reduction _ _ _ _ _ a => rw [e2] at a; cases a
      | expansion _ _ _ _ _ _ =>
        cases k2 with
        | quiet a _ _ => rw [e1, f1] at a; exact absurd a (by decide)
        | reduction _ _ _ _ _ a => rw [f2] at a; cases a
        | expansion _ _ _ _ _ _ =>
          match n, hl with
          | 0, h => cases h
          | 1, h => cases h
          | n + 2, h => cases h
""")

# A trivial arithmetic: the statements about files hold for every arithmetic with `TextLaws`.
JSON = r"""
import Verif.Props.JsonText
open VGram.Dump VGram.Parse
def uOps : FloatOps Unit := ⟨fun _ => (), fun _ _ => (), fun _ _ => (), fun _ _ => (), fun _ _ => (), fun _ _ => (), fun _ => (), fun _ => (), fun _ _ => false, (), (),
  fun _ => 0, fun _ => true⟩
def uEnv : Env Unit := ⟨uOps, id, id, fun _ _ => ()⟩
def uText (neg : Bool) (d : Str) (e : Int) : TextOps Unit := ⟨fun _ => neg, fun _ => false, fun _ => (d, e), fun _ => ()⟩
theorem uLaws (neg : Bool) (d : Str) (e : Int) (h1 : d ≠ [] ∧ d.head? ≠ some '0' ∧ ∀ c ∈ d, 48 ≤ c.toNat ∧ c.toNat ≤ 57)
    (h2 : -1000 < (d.length : Int) + e - 1 ∧ (d.length : Int) + e - 1 < 1000) : TextLaws uOps (uText neg d e) :=
  ⟨fun _ _ _ => h1, fun _ _ _ => h2, fun _ _ _ _ _ => rfl, fun _ _ _ _ _ => rfl, fun _ _ _ _ _ => rfl⟩
abbrev uT : TextOps Unit := uText false ['1'] 0
theorem uL : TextLaws uOps uT := uLaws _ _ _ (by decide) (by decide)
theorem items : ∀ {l : List (Json Unit)}, okItems l = true → ∀ j ∈ l, okInts j = true
  | _ :: _, h, j, hj => by
    simp only [okItems, Bool.and_eq_true] at h
    rcases List.mem_cons.1 hj with rfl | hj
    · exact h.1
    · exact items h.2 j hj
theorem fields : ∀ {l : List (Str × Json Unit)}, okFields l = true → ∀ e ∈ l, okInts e.2 = true
  | _ :: _, h, j, hj => by
    simp only [okFields, Bool.and_eq_true] at h
    rcases List.mem_cons.1 hj with rfl | hj
    · exact h.1
    · exact fields h.2 j hj
theorem sound {j : Json Unit} (h : okInts j = true) : Ints64 j := by
  intro i hi
  generalize hx : Json.int i = x at hi
  induction hi with
  | refl => subst hx; exact of_decide_eq_true h
  | arr hy _ ih => exact ih (items h _ hy)
  | obj hy _ ih => exact ih (fields h _ hy)
mutual
def weight (j : Json Unit) : Nat :=
  match j with
  | .int _ => 1000000
  | .str s => s.length
  | .arr l => weightItems l
  | .obj l => weightFields l
  | _ => 0
termination_by structural j
def weightItems (l : List (Json Unit)) : Nat :=
  match l with
  | [] => 0
  | j :: l => weight j + weightItems l
termination_by structural l
def weightFields (l : List (Str × Json Unit)) : Nat :=
  match l with
  | [] => 0
  | (_, j) :: l => weight j + weightFields l
termination_by structural l
end
abbrev model (size : Int) (words : Bool) (calls : List TextCall) : M (StringStream Unit) :=
  (StringStream.new uOps size false words).bind fun m0 => textRun uEnv .rhsFirst m0 calls
abbrev tree (size : Int) (words : Bool) (calls : List TextCall) : M (Json Unit) := (model size words calls).bind fun m => Saver.saveStringStream uOps m
theorem saved {size : Int} {words : Bool} {calls : List TextCall} (h : ((tree size words calls).bind fun j => (.ok (okInts j) : M Bool)) = .ok true) :
    ∃ m j, model size words calls = .ok m ∧ tree size words calls = .ok j ∧ Saver.saveStringStream uOps m = .ok j ∧ Ints64 j := by
  obtain ⟨j, h1⟩ := ok_of (x := tree size words calls) (by
    cases h1 : tree size words calls with
    | ok j => rfl
    | error e => rw [h1] at h; cases h)
  obtain ⟨m, h2⟩ := ok_of (x := model size words calls) (by
    cases h2 : model size words calls with
    | ok j => rfl
    | error e => rw [tree, h2] at h1; cases h1)
  refine ⟨m, j, h2, h1, ?_, sound (use okInts true h1 h)⟩
  rw [tree, h2] at h1
  exact h1
"""
def round_trip(calls, size="3", value="isOk", res="false", last="cases e3"): return JSON + r"""
example : False := by
  obtain ⟨m, j, h1, h2, h3, h4⟩ := saved (size := SIZE) (words := true) (calls := CALLS) (by decide +kernel)
  have e1 := use (fun j => (writeFile uOps uT j).done) true h2 (by decide +kernel)
  have h5 := C62_file_round_trip uL (.textStream m h3) h4 e1
  have e3 := use (fun j => VALUE) RES h2 (by decide +kernel)
  LAST
""".replace("SIZE", size).replace("CALLS", calls).replace("VALUE", value).replace("RES", res).replace("LAST", last)
REFUTE["J01"] = round_trip(r"[.accept ['\\'], .update]", value="isOk (readFile uOps uT (writeFile uOps uT j).text)", last="rw [h5] at e3; cases e3")
WEIGH = "((readFile uOps uT (writeFile uOps uT j).text).toOption.map weight, some (weight j))"
REFUTE["J05"] = round_trip("[.accept ['a'], .update]", size="1099511627776", value=WEIGH.replace(", some", ") == (some"), res="false",
    last="rw [h5] at e3; exact absurd e3 (by simp [Except.toOption])")
REFUTE["J09"] = round_trip("[.accept (List.replicate 600 'a'), .update]", value=WEIGH.replace(", some", ") == (some"), res="false",
    last="rw [h5] at e3; exact absurd e3 (by simp [Except.toOption])")
def invalid(byte): return JSON + r"""
theorem no_utf8 (n : Nat) (h : 128 ≤ n) : ¬ ∃ t : List Char, [n] = t.flatMap utf8 := by
  rintro ⟨t, h1⟩
  match t with
  | [] => cases h1
  | c :: t =>
    rw [List.flatMap_cons, utf8] at h1
    try dsimp only at h1
    split at h1
    · injection h1 with h1 _; omega
    · split at h1
      · injection h1 with _ h1; cases h1
      · split at h1
        · injection h1 with _ h1; cases h1
        · injection h1 with _ h1; cases h1
example : False := by
  obtain ⟨m, j, h1, h2, h3, h4⟩ := saved (size := 3) (words := true) (calls := [.accept [Char.ofNat BYTE], .update]) (by decide +kernel)
  have e1 := use (fun j => (writeFile uOps uT j).done) true h2 (by decide +kernel)
  obtain ⟨ws, h5, h6⟩ := C61_text_stream_save uT h3 h4
  have e2 := use2 (f := fun m => m.alphabet) id [[Char.ofNat BYTE]] h1 h5 (by decide +kernel)
  try dsimp only [id] at e2
  subst e2
  exact no_utf8 BYTE (by decide) (h6.1 e1 [Char.ofNat BYTE] (by simp))
""".replace("BYTE", byte)
REFUTE["J02"] = invalid("0xFF")
REFUTE["J03"] = invalid("0xC3")
VALUE = r"""
def isd (c : Char) : Bool := decide (48 ≤ c.toNat) && decide (c.toNat ≤ 57)
theorem isd_of {c : Char} (h : IsDigit c) : isd c = true := by
  unfold IsDigit at h
  simp [isd, h.1, h.2]
def expo : Str → Int
  | [] => 0
  | _ :: '+' :: ds => numeral ds
  | _ :: '-' :: ds => -(numeral ds : Int)
  | _ :: ds => numeral ds
def dval (s : Str) : ℚ :=
  match s.dropWhile isd with
  | '.' :: t => (numeral (s.takeWhile isd ++ t.takeWhile isd) : ℚ) * 10 ^ (expo (t.dropWhile isd) - ((t.takeWhile isd).length : Int))
  | r => (numeral (s.takeWhile isd) : ℚ) * 10 ^ (expo r - 0)
theorem cut {a r : Str} (h : ∀ c ∈ a, IsDigit c) (hr : ∀ c, r.head? = some c → isd c = false) : (a ++ r).takeWhile isd = a ∧ (a ++ r).dropWhile isd = r := by
  have h' : ∀ c ∈ a, isd c = true := fun c hc => isd_of (h c hc)
  rw [List.takeWhile_append_of_pos h', List.dropWhile_append_of_pos h']
  cases r with
  | nil => simp
  | cons c r => simp [hr c rfl]
theorem expo_eq {x : Str} {e : Int} (h : IsExp x e) : expo x = e ∧ (∀ c, x.head? = some c → isd c = false ∧ c ≠ '.') := by
  cases h with
  | none => exact ⟨rfl, by simp⟩
  | plus c sg ds hc hs hd hi =>
    refine ⟨?_, by rcases hc with rfl | rfl <;> (intro c h; cases h; decide)⟩
    rcases hs with rfl | rfl
    · match ds, hd, hi with
      | d :: ds, _, hi =>
        have h1 : d ≠ '+' := by rintro rfl; exact absurd (isd_of (hi '+' (by simp))) (by decide)
        have h2 : d ≠ '-' := by rintro rfl; exact absurd (isd_of (hi '-' (by simp))) (by decide)
        unfold expo
        split
        · simp at *
        · next h => injection h with _ h; injection h with h _; exact absurd h h1
        · next h => injection h with _ h; injection h with h _; exact absurd h h2
        · next h => injection h with _ h; rw [← h]; rfl
    · rfl
  | minus c ds hc hd hi => exact ⟨rfl, by rcases hc with rfl | rfl <;> (intro c h; cases h; decide)⟩
theorem dval_eq {s : Str} {v : ℚ} (h : Denotes s false v) : dval s = v := by
  cases h with
  | mk _ a f b x e ha hd hb hf hx =>
    obtain ⟨h1, h2⟩ := expo_eq hx
    have e0 : (if false = true then ['-'] else []) ++ (a ++ (f ++ x)) = a ++ (f ++ x) := rfl
    rw [e0]
    rcases hf with ⟨rfl, rfl⟩ | ⟨rfl, hb0⟩
    · obtain ⟨c1, c2⟩ := cut (a := a) (r := [] ++ x) hd fun c hc => (h2 c hc).1
      unfold dval
      rw [c1, c2]
      split
      · next t ht => exact absurd rfl (h2 '.' (by rw [show x = _ from ht]; rfl)).2
      · rw [show expo ([] ++ x) = e from h1]; simp
    · obtain ⟨c1, c2⟩ := cut (a := a) (r := ('.' :: b) ++ x) hd (by intro c hc; cases hc; decide)
      obtain ⟨c3, c4⟩ := cut (a := b) (r := x) hb fun c hc => (h2 c hc).1
      unfold dval
      rw [c1, c2]
      show (numeral (a ++ (b ++ x).takeWhile isd) : ℚ) * 10 ^ (expo ((b ++ x).dropWhile isd) - (((b ++ x).takeWhile isd).length : Int)) = _
      rw [c3, c4, h1]
theorem signed {s : Str} {v : ℚ} (h : Denotes s true v) : s.head? = some '-' := by
  cases h; rfl
"""
def number(digits, e, text): return JSON + VALUE + r"""
example : False := by
  have h := dval_eq (C62_number_text (uLaws false DIGITS EXP (by decide) (by decide)) (x := ()) rfl)
  rw [show toChars (uText false DIGITS EXP) () = TEXT.toList by decide +kernel] at h
  exact absurd h (by decide +kernel)
""".replace("DIGITS", digits).replace("EXP", e).replace("TEXT", text)
REFUTE["J04"] = number("['1']", "20", '"1e+02"')
REFUTE["J10"] = number("['1']", "2", '"10.0"')
REFUTE["J11"] = number("['1', '2']", "(-5)", '"0.12"')
REFUTE["J12"] = number("['1']", "20", '"1e+21"')
REFUTE["J13"] = JSON + VALUE + r"""
example : False := by
  have h := signed (C62_number_text (uLaws true ['1'] 0 (by decide) (by decide)) (x := ()) rfl)
  exact absurd h (by decide +kernel)
"""
REFUTE["J14"] = JSON + r"""
example : False := by
  obtain ⟨m, j, h1, h2, h3, h4⟩ := saved (size := 3) (words := true) (calls := [.accept ['a'], .update]) (by decide +kernel)
  have e1 := use (fun j => (isOk (readFile uOps uT ((writeFile uOps uT j).text.take ((writeFile uOps uT j).text.length - 2))),
    decide (3 ≤ (writeFile uOps uT j).text.length))) (true, true) h2 (by decide +kernel)
  injection e1 with e1 e2
  have e2 := of_decide_eq_true e2
  rcases C56_crash_while_saving uL (.textStream m h3) h4 _ (List.take_prefix ((writeFile uOps uT j).text.length - 2) (writeFile uOps uT j).text) with ⟨_, h5, _⟩ | ⟨_, h5⟩
  · rcases h5 with h5 | h5
    · have := congrArg List.length h5
      rw [List.length_take] at this
      omega
    · have := congrArg List.length h5
      rw [List.length_append, List.length_take] at this
      simp at this
      omega
  · rw [h5] at e1
    cases e1
"""

def reload(g, v, last): return r"""
abbrev slow : Env (Ext Rat) := Ext.env Rat fun x => 1 - 1 / x
example : False := by
  obtain ⟨m, d, ws, mp, h1, h2, h3, h4, h5⟩ := C51_load_save_partial slow (Ext.envLaws _) (Ext.scoreLaws _) (Stream.new slow.ops 3) [] [.accept [8, 7, 7], .update]
    ⟨false, 3, .fresh (by decide), .accept (.update .nil), by decide⟩
  have e1 := use2 (f := fun m => m.getDict) (fun d => d.seqs) [[0], [1]] h1 h2 (by decide +kernel)
  have e2 := use2 (f := fun m => m.alphabet) id [[8], [7]] h1 h3 (by decide +kernel)
  have e3 := use (fun m => m.freqs) [1, 2] h1 (by decide +kernel)
  have e4 := use (fun m => m.minProb.map slow.ops.isFinite) (some true) h1 (by decide +kernel)
  have e5 := use (fun m => m.size) 3 h1 (by decide +kernel)
  try dsimp only [id] at e1 e2 e3 e4 e5
  rw [h4] at e4
  obtain ⟨j, m', h6, h7, h8, h9, h10, _⟩ := h5 (by rw [e1]; decide) (by rw [e2, e3]; rfl) (Option.some.inj e4)
  have h11 : (Saver.saveStream slow.ops m).bind (Loader.loadStream slow.ops) = .ok m' := by rw [h6]; exact h7
  have e6 := use2 (f := fun m => (Saver.saveStream slow.ops m).bind (Loader.loadStream slow.ops)) (fun m => GET) VAL h1 h11 (by decide +kernel)
  try dsimp only at e6
  LAST
""".replace("GET", g).replace("VAL", v).replace("LAST", last)
REFUTE["P01"] = reload("m.alphabet.toOption", "(some [[7], [8]])", "rw [h8, e2] at e6; exact absurd e6 (by decide)")
REFUTE["P02"] = reload("m.freqs", "[1, 1]", "rw [h9, e3] at e6; exact absurd e6 (by decide)")
REFUTE["P03"] = reload("m.freqs", "[2, 1]", "rw [h9, e3] at e6; exact absurd e6 (by decide)")
REFUTE["P04"] = reload("m.size", "4", "rw [h10, e5] at e6; exact absurd e6 (by decide)")
REFUTE["P05"] = r"""
abbrev half : M (StringVGram (Ext Rat)) := ((StringVGram.new quickEnv.ops 3 1 .char).fit quickEnv .rhsFirst (stopAt 100) [['a']]).bind fun m =>
  .ok { m with int := { m.int with freqsComputed := false } }
example : False := by
  obtain ⟨m, h⟩ := ok_of (x := half) (by decide +kernel)
  obtain ⟨j, h'⟩ := ok_of (x := half.bind fun m => Saver.saveStringVGram quickEnv.ops m) (by decide +kernel)
  obtain ⟨m', h''⟩ := ok_of (x := (half.bind fun m => Saver.saveStringVGram quickEnv.ops m).bind fun j => Loader.loadStringVGram quickEnv.ops j) (by decide +kernel)
  have e1 := use (fun m => m.int.fitted) true h (by decide +kernel)
  have e2 := use (fun m => m.int.fitted) false h'' (by decide +kernel)
  rw [h'] at h''
  rw [h] at h'
  have h3 := (C52_flags quickEnv.ops m m' j h' h'').1
  try dsimp only at e1 e2
  rw [e1, e2] at h3
  cases h3
"""
REFUTE["P06"] = r"""
example : False := by
  obtain ⟨m, h⟩ := ok_of (x := (StringVGram.new quickEnv.ops 3 1 .char).fit quickEnv .rhsFirst (stopAt 100) [['a']]) (by decide +kernel)
  have R : TextModel quickEnv .char m _ := .fit (by decide) (by decide) (by decide) (fun j hj => by simp [stopAt]; simp at hj; omega) h
  obtain ⟨mp, h1, h2⟩ := C52_load_save_partial quickEnv (Ext.envLaws _) (Ext.scoreLaws _) m _ R
  have e := use (fun m => m.int.minProb.map quickEnv.ops.isFinite) (some true) h (by decide +kernel)
  try dsimp only at e
  rw [h1] at e
  obtain ⟨j, m', ws, h3, h4, h5, h6, _⟩ := h2 (Option.some.inj e)
  have h7 : (Saver.saveStringVGram quickEnv.ops m).bind (Loader.loadStringVGram quickEnv.ops) = .ok m' := by rw [h3]; exact h4
  have e1 := use2 (f := fun m => (Saver.saveStringVGram quickEnv.ops m).bind (Loader.loadStringVGram quickEnv.ops)) (fun m => m.alphabet.toOption) (some [[]]) h h7 (by decide +kernel)
  have e2 := use2 (f := fun m => m.alphabet) id [['a']] h h5 (by decide +kernel)
  try dsimp only [id] at e1 e2
  rw [h6, e2] at e1
  exact absurd e1 (by decide)
"""

def nearest(b, ds, e, c):
    """The digits are not nearest to the double: `c` is as near."""
    return f"""
example : False :=
  absurd (C85_nearest (b := {b}) (by decide) (by decide) (ds := {ds}) (e := {e}) (by decide +kernel) (c := {c}) (by decide)) (by decide +kernel)
"""
def fails(b, what):
    return f"""
example : False := by
  obtain ⟨ds, e, h, _⟩ := C85_digits (b := {b}) (by decide) (by decide)
  rw [show Grisu.grisu2 {b} = .error .{what} by decide +kernel] at h
  cases h
"""
def closest(b, ds, e, n):
    return f"""
example : False :=
  absurd (C87_closest_partial (b := {b}) (by decide) (by decide) (ds := {ds}) (e := {e}) (by decide +kernel) (n := {n}) (by decide +kernel) (by decide +kernel)) (by decide +kernel)
"""
REFUTE["G01"] = nearest(4867306314539144597, [2, 5, 3, 5, 1, 4, 1, 3, 1, 4, 0, 4, 1, 4, 1, 2], 2, 4867306314539144596)
REFUTE["G02"] = nearest(18014398509481984, [1, 7, 8, 0, 0, 5, 9, 0, 8, 6, 8, 0, 5, 7, 6, 1], -322, 18014398509481983)
REFUTE["G03"] = nearest(4718491639132200128, [2, 8, 7, 8, 3, 1, 9, 0, 6, 3, 2, 8, 3, 9, 9, 2], -8, 4718491639132200129)
REFUTE["G04"] = nearest(4701659946868451143, [2, 0, 7, 4, 3, 1, 9, 6, 7, 0, 9, 9, 9, 9, 6, 0, 6], -10, 4701659946868451142)
REFUTE["G05"] = nearest(8286338760598862746, [8, 4, 6, 3, 7, 9, 0, 5, 8, 6, 8, 0, 3, 8, 4, 1], 230, 8286338760598862745)
REFUTE["G06"] = closest(9, [4, 5], -324, 44)
REFUTE["G07"] = nearest(2, [5], -324, 1)
REFUTE["G08"] = fails(8396176, "assertion")
REFUTE["G09"] = nearest(1, [5], -323, 2)
REFUTE["G10"] = closest(143026839, [7, 0, 6, 6, 4, 6, 4, 7, 8], -324, 706646475)
REFUTE["G11"] = fails(134976534, "diverge")
REFUTE["G12"] = closest(143026839, [7, 0, 6, 6, 4, 6, 4, 7, 8], -324, 706646475)
REFUTE["G13"] = nearest(0x4028000000000000, [2, 1], 0, 0x4035000000000000)
REFUTE["G14"] = nearest(4857146280264774385, [5, 4, 1, 5, 5, 8, 5, 2, 6, 9, 4, 0, 0, 1, 5, 4], 1, 4857146280264774384)
def double_trip(neg, got): return f"""
def dOps : FloatOps Double := ⟨fun _ => ⟨false, 0⟩, fun _ _ => ⟨false, 0⟩, fun x _ => x, fun x _ => x, fun x _ => x, fun x _ => x, id, id, fun _ _ => false, ⟨false, 0⟩, ⟨false, 0⟩, fun _ => 0, Double.isFinite⟩
example : False := by
  have h := C86_number_round_trip (strtod := strtodEven) C86_strtod_exists dOps (fun _ => rfl) (x := ⟨{neg}, 0⟩) (by decide)
  exact absurd h (by decide +kernel)
"""
REFUTE["G15"] = double_trip("true", "").split("example")[0] + """
example : False := by
  have h := ((C86_text_laws (strtod := strtodEven) (O := dOps) (fun _ => rfl) C86_strtod_exists).digits ⟨true, 0⟩ (by decide) (by decide)).1
  exact absurd h (by decide +kernel)
"""
REFUTE["G16"] = double_trip("true", "")
def too_long(b): return f"""
example : False := by
  have h := C88_double_fits (strtod := strtodEven) ⟨false, {b}⟩ (by decide)
  exact absurd h (by decide +kernel)
"""
REFUTE["G17"] = too_long("0x3a10000000000000")
REFUTE["G18"] = too_long("0x7fefffffffffffff")

LOOK = r"""
def look {F : Type} (j : Json F) (k : String) : Option (Json F) :=
  match j with
  | .obj l => (l.find? fun e => decide (e.1 = k.toList)).map Prod.snd
  | _ => none
theorem look_of {F : Type} {j : Json F} {k : String} {v : Json F} (h : Member j k v) : look j k = some v := by
  obtain ⟨a, b, rfl, h⟩ := h
  have : a.find? (fun e => decide (e.1 = k.toList)) = none := List.find?_eq_none.2 fun e he => by simpa using h e he
  simp only [look, List.find?_append, this]
  simp
"""
def described(members, size, symbols, size_proof, symbols_proof, last):
    """A file without an alphabet and what it describes."""
    return LOOK + f"""
def ms : List (Str × Json (Ext Rat)) := {members}
theorem describes : Describes quickEnv.ops (.obj ms) {size} (quickEnv.ops.ofInt 0) {symbols} [] where
  size := {size_proof}
  prob := ⟨.int 0, ⟨[], _, rfl, by simp⟩, .int 0⟩
  symbols := {symbols_proof}
  entries := ⟨[], Or.inr ⟨⟨_, rfl, by decide⟩, rfl⟩, .nil⟩
example : False := by
  obtain ⟨m, d, h1, _, _, _, _, h2, _, h3⟩ := C81_load_described quickEnv.ops describes
  {last}
"""
NO_CODER = "⟨[], Or.inr ⟨⟨_, rfl, by decide⟩, rfl⟩, .nil⟩"
SIZE1 = "⟨.int 1, ⟨[_], _, rfl, by decide⟩, .int 1⟩"
NO_CODES = "have e := use (fun m => m.coder.encodeImm [7]) [] h1 (by decide +kernel)\n  rw [h3] at e\n  exact absurd e (by decide)"
REFUTE["L01"] = "\nexample : False := absurd C81_missing_key_false.1 (by decide +kernel)\n"
REFUTE["L02"] = described('[("min_prob".toList, .int 0), ("size".toList, .bool true)]', 1, "[]", "⟨.bool true, ⟨[_], _, rfl, by decide⟩, .yes⟩", NO_CODER,
    "have e := use (fun m => m.size) 0 h1 (by decide +kernel)\n  rw [h2] at e\n  exact absurd e (by decide)")
REFUTE["L03"] = described('[("min_prob".toList, .int 0), ("size".toList, .int 1), ("coder".toList, .int 7)]', 1, "[7]", SIZE1,
    "⟨[.int 7], Or.inl ⟨.int 7, ⟨[_, _], _, rfl, by decide⟩, .int 7⟩, .cons (.int 7) .nil⟩", NO_CODES)
REFUTE["L04"] = described('[("min_prob".toList, .int 0), ("size".toList, .int 1), ("coder".toList, .obj [("a".toList, .int 7)])]', 1, "[7]", SIZE1,
    "⟨[.int 7], Or.inl ⟨_, ⟨[_, _], _, rfl, by decide⟩, .obj _⟩, .cons (.int 7) .nil⟩", NO_CODES)
REFUTE["L05"] = described('[("min_prob".toList, .int 0), ("size".toList, .int 1)]', 1, "[]", SIZE1, NO_CODER, "exact noOk h1 (by decide +kernel)")
REFUTE["L06"] = LOOK + r"""
def file : Json (Ext Rat) := .obj [("min_prob".toList, .bool true), ("size".toList, .int 1)]
example : False := by
  obtain ⟨m, h⟩ := ok_of (x := Loader.loadStream quickEnv.ops file) (by decide +kernel)
  obtain ⟨size, prob, symbols, entries, hd⟩ := C81_load_only_described quickEnv.ops h
  obtain ⟨v, h1, h2⟩ := hd.prob
  have h3 := look_of h1
  have h4 : look file "min_prob" = some (.bool true) := rfl
  rw [h4] at h3
  cases h3
  cases h2
"""
REFUTE["L07"] = LOOK + r"""
def texts : M (StringStream (Ext Rat)) := do
  let m ← StringStream.new quickEnv.ops 4 false false
  textRun quickEnv .rhsFirst m [.accept "a".toList, .update]
example : False := by
  obtain ⟨m, h⟩ := ok_of (x := texts) (by decide +kernel)
  obtain ⟨j, hj⟩ := ok_of (x := texts.bind (Saver.saveStringStream quickEnv.ops)) (by decide +kernel)
  have e := use (fun j => (look j "alphabet").map fun v => v.elems.map fun e => (look e "text").isSome) (some [false]) hj (by decide +kernel)
  rw [h] at hj
  obtain ⟨d, ws, l, _, _, _, _, _, _, h5, h6⟩ := C84_text_stream_file quickEnv.ops hj
  rcases h5 with ⟨v, h7, h8⟩ | ⟨⟨l', rfl, h7⟩, rfl⟩
  · rw [look_of h7] at e
    have hl : v.elems = l := by cases h8 <;> rfl
    simp only [Option.map_some, Option.some.injEq, hl] at e
    generalize m.stream.freqs.zip (d.seqs.zip ws) = z at h6
    cases h6 with
    | nil => cases e
    | cons a _ => rw [List.map_cons, look_of a.text] at e; cases e
  · have : look (.obj l') "alphabet" = none := by
      unfold look
      have h8 : l'.find? (fun e => decide (e.1 = "alphabet".toList)) = none := List.find?_eq_none.2 fun e he => by
        have := h7 e he
        simp only [decide_eq_true_eq]
        exact this
      simp only [h8, Option.map_none]
    rw [this] at e
    cases e
"""
REFUTE["L08"] = LOOK + r"""
def calls : List Call := [.accept [7, 8, 7, 8, 7, 8], .accept [7, 8, 7, 8], .update]
example : False := by
  have A : Admissible quickEnv.ops (Stream.new quickEnv.ops 4) [] calls true := ⟨_, _, .fresh (by norm_num), .accept (.accept (.update .nil)), by decide⟩
  obtain ⟨m, ws, mp, h1, _, _, h2⟩ := C84_stream_file quickEnv (Ext.envLaws _) (Ext.scoreLaws _) (Ext.finiteLaws _) (Stream.new quickEnv.ops 4) [] calls A (by rintro mp h; cases h)
  obtain ⟨j, hj⟩ := ok_of (x := (run quickEnv (Stream.new quickEnv.ops 4) calls).bind (Saver.saveStream quickEnv.ops)) (by decide +kernel)
  have e := use (fun j => (look j "size").bind fun v => (v.getInt quickEnv.ops).toOption) (some 3) hj (by decide +kernel)
  rw [h1] at hj
  obtain ⟨codes, l, _, h3, _⟩ := h2 j hj
  rw [look_of h3] at e
  exact absurd e (by decide)
"""
REFUTE["L09"] = r"""
example : False := by
  obtain ⟨m, m', h1, h2, h3, _⟩ := C83_option_ignored quickEnv .rhsFirst 4 [.accept ['A'], .update]
  obtain ⟨a, ha⟩ := ok_of (x := (StringStream.new quickEnv.ops 4 true false).bind fun m => (textRun quickEnv .rhsFirst m [.accept ['A'], .update]).bind fun x => x.alphabet) (by decide +kernel)
  obtain ⟨b, hb⟩ := ok_of (x := (StringStream.new quickEnv.ops 4 false false).bind fun m => (textRun quickEnv .rhsFirst m [.accept ['A'], .update]).bind fun x => x.alphabet) (by decide +kernel)
  have ea := use id [['A']] ha (by decide +kernel)
  have eb := use id [['a']] hb (by decide +kernel)
  rw [h1] at ha
  rw [h2] at hb
  have : (.ok a : M (List Str)) = .ok b := ha.symm.trans (h3.trans hb)
  cases this
  exact absurd (ea.symm.trans eb) (by decide)
"""
REFUTE["I01"] = r"""
def fitted := (IntVGram.new quickEnv.ops 3 1).fit quickEnv (stopAt 100) [[5]]
example : False := by
  obtain ⟨⟨m, r⟩, h⟩ := ok_of (x := fitted) (by decide +kernel)
  have er := use Prod.snd true h (by decide +kernel)
  try dsimp only at er
  subst er
  have R : Ready quickEnv m _ := .fit (by decide) (by decide) (by decide) (fun j hj => by simp [stopAt]; simp at hj; omega) h
  obtain ⟨outs, strs, h1, h2, _, _, h3, _⟩ := C47_transform_to_string_interrupted quickEnv (Ext.envLaws _) (Ext.scoreLaws _) m _ R (stopAt 4) [[5], [5], [5]]
  have e1 := use2 (f := fun p => p.1.transform quickEnv.ops (stopAt 4) [[5], [5], [5]]) (fun p => p.2.length) 3 h h1 (by decide +kernel)
  have e2 := use2 (f := fun p => p.1.transformToString quickEnv.ops (stopAt 4) [[5], [5], [5]]) (fun p => p.2.length) 3 h h2 (by decide +kernel)
  try dsimp only at e1 e2
  have := h3 1 (by omega)
  rw [e1] at this
  exact absurd this (by decide)
"""
REFUTE["I02"] = r"""
def fitted := (IntVGram.new quickEnv.ops 3 1).fit quickEnv (stopAt 100) [[5]]
def again (m : IntVGram (Ext Rat)) := ({ m with freqsComputed := false } : IntVGram (Ext Rat)).fit quickEnv (stopAt 0) [[5], [5]]
def expected (m : IntVGram (Ext Rat)) := (IntVGram.recomputeFreqs quickEnv.ops never 0 { m with freqsComputed := false } ([[5], [5]].take (0 + 1))).bind fun m2 =>
      .ok ({ m2 with freqsComputed := true, totalFreqs := m.totalFreqs }, true)
example : False := by
  obtain ⟨⟨m, r⟩, h⟩ := ok_of (x := fitted) (by decide +kernel)
  have ef := use (fun p => p.1.fitted) true h (by decide +kernel)
  have h1 := C48_interrupted_recount_false quickEnv (stopAt 0) { m with freqsComputed := false } [[5], [5]] 0 ef rfl (by decide) (by intro j hj; omega) (by decide)
  have h1' : again m = expected m := h1
  obtain ⟨p, hp⟩ := ok_of (x := fitted.bind fun p => again p.1) (by decide +kernel)
  have e1 := use (fun p => p.1.freqs) [2] hp (by decide +kernel)
  have hp' : expected m = .ok p := by rw [← h1', ← hp, h]; rfl
  have e2 := use2 (f := fun p => expected p.1) (fun p => p.1.freqs) [1] h hp' (by decide +kernel)
  rw [e1] at e2
  exact absurd e2 (by decide)
"""
REFUTE["I03"] = LOOK + r"""
def stopped := (IntVGram.new quickEnv.ops 3 2).fit quickEnv (stopAt 1) [[5]]
example : False := by
  obtain ⟨⟨m, r⟩, h⟩ := ok_of (x := stopped) (by decide +kernel)
  have er := use Prod.snd false h (by decide +kernel)
  try dsimp only at er
  subst er
  obtain ⟨j, hj⟩ := ok_of (x := stopped.bind fun p => Saver.saveStringVGram quickEnv.ops ⟨p.1, Tokenizer.new .char⟩) (by decide +kernel)
  have e := use (fun j => (look j "freqs_computed").bind fun v => v.getBool.toOption) (some true) hj (by decide +kernel)
  rw [h] at hj
  have h2 := (C45_unfitted_file quickEnv 3 2 (Tokenizer.new .char) (stopAt 1) [[5]] (Or.inr h) hj).2
  rw [look_of h2] at e
  exact absurd e (by decide)
"""

# The JSON grammar: texts that must be read as a given value, and texts that must not be read.
GRAMMAR = JSON + r"""
import Verif.Props.Grammar
import Mathlib.Tactic.IntervalCases
theorem raw {c : Char} (h : 0x20 ≤ c.toNat) (h' : c.toNat < 0x80) (h1 : c ≠ '"') (h2 : c ≠ '\\') : StringText [c] [c] := by
  have e : utf8Bytes c = [c] := by
    simp only [utf8Bytes, utf8, if_pos h', List.map_cons, List.map_nil]
    simp [Char.ofNat_toNat]
  have := StringText.cons (StringChar.raw c h h1 h2) .nil
  rwa [e] at this
theorem one {s a : Str} (h : StringChar s a) : StringText s a := by
  have := StringText.cons h .nil
  rwa [List.append_nil, List.append_nil] at this
theorem arr1 {t : Str} {j : Json Unit} (h : Value uOps uT t j) : JsonDoc uOps uT ('[' :: (t ++ [']'])) (.arr [j]) := by
  have h1 : Grammar uOps uT ([] ++ (t ++ [])) (.items [j]) := .item [] t [] j nofun h nofun
  rw [List.append_nil, List.nil_append] at h1
  exact ⟨[], _, [], by simp, nofun, .array t [j] h1, nofun⟩
theorem hex (a b c d : Char) (x y z w : Nat) (h : HexDigit a x ∧ HexDigit b y ∧ HexDigit c z ∧ HexDigit d w) : Hex4 [a, b, c, d] (4096 * x + 256 * y + 16 * z + w) :=
  ⟨a, b, c, d, x, y, z, w, rfl, h.1, h.2.1, h.2.2.1, h.2.2.2, rfl⟩
instance (c : Char) (n : Nat) : Decidable (HexDigit c n) := by unfold HexDigit; infer_instance
def bytes (j : Json Unit) : List Nat := match j with | .arr [.str s] => s.map Char.toNat | _ => []
theorem num1 (c : Char) (n : Nat) (h : 48 ≤ c.toNat ∧ c.toNat ≤ 57) (hn : numeral [c] = n) : IsNumeral [c] n :=
  ⟨by simp, by simpa [IsDigit] using h, by simp, hn⟩
theorem trim {w t w' s : Str} (e : s = w ++ (t ++ w')) (hw : IsSpace w) (hw' : IsSpace w') (h1 : ∀ c ∈ s.head?, ¬ (c = ' ' ∨ c = '\t' ∨ c = '\n' ∨ c = '\r'))
    (h2 : ∀ c ∈ s.getLast?, ¬ (c = ' ' ∨ c = '\t' ∨ c = '\n' ∨ c = '\r')) : t = s := by
  have a : w = [] := by
    cases w with
    | nil => rfl
    | cons c w => exact absurd (hw c (by simp)) (h1 c (by simp [e]))
  have b : w' = [] := by
    rcases List.eq_nil_or_concat w' with h | ⟨l, c, h⟩
    · exact h
    · exact absurd (hw' c (by simp [h])) (h2 c (by simp [e, h, ← List.append_assoc]))
  subst a b
  simpa using e.symm
theorem inv {s : Str} {j : Json Unit} {u : Str} (hs : s = '[' :: (u ++ [']'])) (h : parse uOps uT s = .ok (.arr [j], []))
    (h1 : ∀ c ∈ u.head?, ¬ (c = ' ' ∨ c = '\t' ∨ c = '\n' ∨ c = '\r')) (h2 : ∀ c ∈ u.getLast?, ¬ (c = ' ' ∨ c = '\t' ∨ c = '\n' ∨ c = '\r')) : Value uOps uT u j := by
  obtain ⟨b, w, t, e, hb, hw, hv⟩ := (C92_reader uOps uT s [] (.arr [j]) trivial).1 h
  have hb : b = [] := by
    rcases hb with hb | hb
    · exact hb
    · rw [hs, hb] at e
      injection e with e _
      exact absurd e (by decide)
  subst hb
  rw [List.nil_append, List.append_nil] at e
  have ht : t = s := by
    have : w = [] := by
      cases w with
      | nil => rfl
      | cons c w =>
        rw [hs] at e
        injection e with e _
        have := hw c (by simp)
        rw [← e] at this
        exact absurd this (by decide)
    rw [e, this]
    rfl
  rw [ht, hs] at hv
  generalize hx : '[' :: (u ++ [']']) = x at hv
  unfold Value at hv
  cases hv with
  | array t l h =>
    injection hx with _ hx
    have hx := List.append_cancel_right hx
    subst hx
    generalize hl : u = y at h
    cases h with
    | item w t w' j hw ht hw' =>
      subst hl
      have := trim rfl hw hw' h1 h2
      rwa [this] at ht
    | items w t w' u' j l _ _ _ hu =>
      cases hu
"""
def misread(deriv, text): return GRAMMAR + deriv + r"""
example : False := by
  have h := C92_accepts uOps uT TEXT _ doc
  have e : isOk (readFile uOps uT TEXT) = false := by decide +kernel
  exact noOk h e
""".replace("TEXT", text)
def misvalue(deriv, want): return GRAMMAR + deriv + r"""
example : False := by
  have h := C92_accepts uOps uT _ _ doc
  have e := use bytes WANT h (by decide +kernel)
  exact absurd e (by decide +kernel)
""".replace("WANT", want)
def string1(text, out, char): return "theorem doc : JsonDoc uOps uT ('[' :: (('\"' :: (%s ++ ['\"'])) ++ [']'])) (.arr [.str %s]) := arr1 (.string %s %s (one (%s)))\n" % (text, out, text, out, char)
REFUTE["J06"] = GRAMMAR + r"""
theorem a : StringText ['a'] ['a'] := raw (by decide) (by decide) (by decide) (by decide)
theorem v1 : Value uOps uT ['1'] (.int 1) := .int _ 1 (.pos _ 1 (num1 '1' 1 (by decide) (by decide))) ⟨by decide, by decide⟩
theorem v2 : Value uOps uT ['2'] (.int 2) := .int _ 2 (.pos _ 2 (num1 '2' 2 (by decide) (by decide))) ⟨by decide, by decide⟩
theorem map : IsMap (F := Unit) [(['a'], .int 1), (['a'], .int 2)] [(['a'], .int 2)] := by
  refine ⟨by simp, fun k v => ?_⟩
  constructor
  · intro h
    rw [List.mem_singleton] at h
    cases h
    exact ⟨[(['a'], .int 1)], [], rfl, nofun⟩
  · rintro ⟨l1, l2, h, h'⟩
    match l1, h with
    | [], h => injection h with h1 h2; subst h2; cases h1; exact absurd rfl (h' (['a'], .int 2) (by simp))
    | [_], h => injection h with _ h; injection h with h _; rw [← h]; simp
    | _ :: _ :: l, h => injection h with _ h; injection h with _ h; cases l <;> cases h
theorem doc : Value uOps uT "{\"a\":1,\"a\":2}".toList (.obj [(['a'], .int 2)]) :=
  .object _ _ _ (.members [] ['a'] ['a'] [] [] ['1'] [] _ _ _ nofun a nofun nofun v1 nofun (.member [] ['a'] ['a'] [] [] ['2'] [] _ nofun a nofun nofun v2 nofun)) map
example : False := by
  have h := C92_accepts uOps uT "{\"a\":1,\"a\":2}".toList _ ⟨[], _, [], (List.append_nil _).symm, nofun, doc, nofun⟩
  have e := use (fun j => match j with | .obj [(_, .int i)] => i | _ => 0) 1 h (by decide +kernel)
  exact absurd e (by decide)
"""
REFUTE["J08"] = GRAMMAR + r"""
example : False := by
  obtain ⟨m, j, h1, h2, h3, h4⟩ := saved (size := 3) (words := true) (calls := [.accept ['a'], .update]) (by decide +kernel)
  have e1 := use (fun j => (writeFile uOps uT j).done) true h2 (by decide +kernel)
  have e2 := use (fun j => match j with | .obj _ => true | _ => false) true h2 (by decide +kernel)
  have e3 := use (fun j => match parse uOps uT (writeFile uOps uT j).text with | .ok (_, r) => r | _ => []) ['}'] h2 (by decide +kernel)
  have hc : IsContainer j := by cases j <;> first | trivial | cases e2
  obtain ⟨w, t, w', h5, h6, h7, h8⟩ := C93_writer uL (.textStream m h3) h4 e1
  have h9 := (C92_reader uOps uT _ w' j hc).2 ⟨[], w, t, h5, Or.inl rfl, h6, h7⟩
  rw [h9] at e3
  dsimp only at e3
  exact absurd (h8 '}' (by simp [e3])) (by decide)
"""
REFUTE["W01"] = GRAMMAR + r"""
example : False := by
  have h : parse uOps uT "[01]".toList = .ok (.arr [.int 1], []) := by rfl
  have h := inv (u := "01".toList) rfl h (by decide) (by decide)
  generalize hx : "01".toList = x at h
  unfold Value at h
  generalize hy : (1 : Int) = y at h
  cases h with
  | int t i hn _ =>
    generalize ho : some y = o at hn
    cases hn with
    | pos t n hn => subst hx; exact absurd (hn.lead rfl) (by decide)
    | neg t n hn => injection hx with hx _; exact absurd hx (by decide)
    | real => cases ho
"""
REFUTE["W02"] = misvalue(string1(r"['\\', 'u', '0', '0', '4', 'A']", "(utf8Bytes 'J')", r"""StringChar.unicode ['0', '0', '4', 'A'] 'J' (hex '0' '0' '4' 'A' 0 0 4 10 (by decide))"""), "[64]")
REFUTE["W03"] = misvalue(string1(r"""['\\', 'u', 'd', '8', '3', 'd', '\\', 'u', 'd', 'e', '0', '0']""", "(utf8Bytes (Char.ofNat 0x1F600))",
    r"""StringChar.pair ['d', '8', '3', 'd'] ['d', 'e', '0', '0'] 0x3D 0x200 (Char.ofNat 0x1F600) (by decide) (by decide) (hex 'd' '8' '3' 'd' 13 8 3 13 (by decide)) (hex 'd' 'e' '0' '0' 13 14 0 0 (by decide)) (by decide)"""), "[239, 152, 128]")
REFUTE["W04"] = misread(string1(r"""['\\', '/']""", "['/']", r"""StringChar.escape '/' '/' (by decide)"""), r"""['[', '"', '\\', '/', '"', ']']""")
REFUTE["W05"] = GRAMMAR + r"""
example : False := by
  have h := (C92_reader uOps uT (byteOrderMark ++ ['{', '}']) [] (.obj []) trivial).2 ⟨byteOrderMark, [], ['{', '}'], rfl, Or.inr rfl, nofun, .emptyObject [] nofun⟩
  exact noOk h (by decide +kernel)
"""
REFUTE["W06"] = GRAMMAR + r"""
example : False := by
  have h := (C92_reader uOps uT ['\t', '{', '}'] [] (.obj []) trivial).2 ⟨[], ['\t'], ['{', '}'], rfl, Or.inl rfl, by intro c hc; simp at hc; simp [hc], .emptyObject [] nofun⟩
  exact noOk h (by decide +kernel)
"""
REFUTE["W07"] = misread(r"""theorem doc : JsonDoc uOps uT "[1e5]".toList (.arr [.num ()]) :=
  arr1 (.real "1e5".toList (.real [] ['1'] [] ['e', '5'] 1 _ (Or.inl rfl) (num1 '1' 1 (by decide) (by decide)) (Or.inl rfl) (.plus 'e' [] ['5'] (Or.inl rfl) (Or.inl rfl) (by simp) (by simp [IsDigit])) (by simp)) rfl)
""", '"[1e5]".toList')
REFUTE["W08"] = misvalue(string1(r"""['\\', 'u', '0', '7', 'f', 'f']""", "(utf8Bytes (Char.ofNat 0x7FF))", r"""StringChar.unicode ['0', '7', 'f', 'f'] (Char.ofNat 0x7FF) (hex '0' '7' 'f' 'f' 0 7 15 15 (by decide))"""), "[224, 159, 191]")
REFUTE["W09"] = GRAMMAR + r"""
theorem last {t : Str} {l : List (Json Unit)} (h : Value uOps uT t (.arr l)) : t.getLast? = some ']' := by
  cases h with
  | emptyArray w _ => show (('[' :: w) ++ [']']).getLast? = _; rw [List.getLast?_append]; rfl
  | array t l _ => show (('[' :: t) ++ [']']).getLast? = _; rw [List.getLast?_append]; rfl
example : False := by
  have h : parse uOps uT "[1}".toList = .ok (.arr [.int 1], []) := by rfl
  obtain ⟨b, w, t, e, hb, hw, hv⟩ := (C92_reader uOps uT _ [] (.arr [.int 1]) trivial).1 h
  have h1 := last hv
  have h2 := congrArg List.getLast? e
  rw [List.append_nil, List.getLast?_append, List.getLast?_append, h1] at h2
  change some '}' = some ']' at h2
  exact absurd h2 (by decide)
"""
STRINGINV = r"""
theorem strInv {u : Str} {j : Json Unit} (h : Value uOps uT ('"' :: (u ++ ['"'])) j) : ∃ s, StringText u s := by
  generalize hx : '"' :: (u ++ ['"']) = x at h
  have num : ∀ {o}, NumberText ('"' :: (u ++ ['"'])) o → False := by
    intro o h
    generalize hy : '"' :: (u ++ ['"']) = y at h
    have dig : ∀ {a v : Str} {n : Nat}, IsNumeral a n → '"' :: (u ++ ['"']) = a ++ v → False := by
      intro a v n ha e
      cases a with
      | nil => exact ha.nonempty rfl
      | cons c a => injection e with e _; exact absurd (ha.digits c (by simp)) (by rw [← e]; unfold IsDigit; decide)
    cases h with
    | pos t n h => exact dig (v := []) h (by simpa using hy)
    | neg t n h => injection hy with e _; exact absurd e (by decide)
    | real sign t f x n e hs h =>
      rcases hs with rfl | rfl
      · exact dig h hy
      · injection hy with e _; exact absurd e (by decide)
  unfold Value at h
  cases h with
  | null => cases hx
  | true => cases hx
  | false => cases hx
  | int t i h => subst hx; exact (num h).elim
  | big t i h => subst hx; exact (num h).elim
  | real t h => subst hx; exact (num h).elim
  | string t s h =>
    injection hx with _ hx
    have := List.append_cancel_right hx
    subst this
    exact ⟨s, h⟩
  | emptyArray => cases hx
  | array => cases hx
  | emptyObject => cases hx
  | object => cases hx
theorem head {u : Str} {s : Str} (h : StringText u s) (h0 : u ≠ []) : ∃ a b v, StringChar a b ∧ u = a ++ v := by
  cases h with
  | nil => exact absurd rfl h0
  | cons h _ => exact ⟨_, _, _, h, rfl⟩
theorem rawHead {c : Char} {a v : Str} {d : Char} (h : d :: v = utf8Bytes c ++ a) :
    (c.toNat < 0x80 ∧ d.toNat = c.toNat) ∨ 0xC2 ≤ d.toNat := by
  have val : ∀ k : Fin 256, (Char.ofNat k.val).toNat = k.val := by decide +kernel
  have hv : c.toNat < 0x110000 := by
    have := c.valid
    have h : c.toNat = c.val.toNat := rfl
    simp only [UInt32.isValidChar, Nat.isValidChar] at this
    omega
  simp only [utf8Bytes, utf8] at h
  generalize c.toNat = n at h hv
  split at h
  · injection h with h _
    exact Or.inl ⟨by assumption, by rw [h]; exact val ⟨n, by omega⟩⟩
  · split at h
    · injection h with h _
      right
      rw [h, val ⟨0xC0 + n / 64, by omega⟩]
      dsimp only
      omega
    · split at h
      · injection h with h _
        right
        rw [h, val ⟨0xE0 + n / 4096, by omega⟩]
        dsimp only
        omega
      · injection h with h _
        right
        rw [h, val ⟨0xF0 + n / 262144, by omega⟩]
        dsimp only
        omega
"""
def badchar(text, value): return GRAMMAR + STRINGINV + r"""
example : False := by
  have h : parse uOps uT ('[' :: (('"' :: (TEXT ++ ['"'])) ++ [']'])) = .ok (.arr [.str VALUE], []) := by rfl
  have h := inv rfl h (by decide) (by decide)
  obtain ⟨s, h⟩ := strInv h
  obtain ⟨a, b, v, h, e⟩ := head h (by decide)
  LAST
""".replace("TEXT", text).replace("VALUE", value)
REFUTE["W10"] = badchar("[Char.ofNat 0x1F]", "[Char.ofNat 0x1F]").replace("LAST", r"""cases h with
  | raw c h1 _ _ =>
    rcases rawHead e with ⟨_, h⟩ | h
    · rw [← h] at h1; exact absurd h1 (by decide)
    · exact absurd h (by decide)
  | escape => injection e with e _; exact absurd e (by decide)
  | unicode => injection e with e _; exact absurd e (by decide)
  | pair => injection e with e _; exact absurd e (by decide)""")
REFUTE["W11"] = badchar("[Char.ofNat 0xC0, Char.ofNat 0x80]", "[Char.ofNat 0xC0, Char.ofNat 0x80]").replace("LAST", r"""cases h with
  | raw c h1 _ _ =>
    rcases rawHead e with ⟨h, h'⟩ | h
    · rw [← h'] at h; exact absurd h (by decide)
    · exact absurd h (by decide)
  | escape => injection e with e _; exact absurd e (by decide)
  | unicode => injection e with e _; exact absurd e (by decide)
  | pair => injection e with e _; exact absurd e (by decide)""")
REFUTE["W12"] = badchar(r"['\\', 'u', 'd', 'f', 'f', 'f']", "[Char.ofNat 0xED, Char.ofNat 0xBF, Char.ofNat 0xBF]").replace("LAST", r"""have dig : ∀ n, HexDigit 'd' n → n = 13 := by
    rintro n (h | h)
    · have : n < 16 := (List.getElem?_eq_some_iff.1 h).1
      interval_cases n <;> first | rfl | exact absurd h (by decide)
    · have : n < 16 := (List.getElem?_eq_some_iff.1 h).1
      interval_cases n <;> exact absurd h (by decide)
  have dig' : ∀ n, HexDigit 'f' n → n = 15 := by
    rintro n (h | h)
    · have : n < 16 := (List.getElem?_eq_some_iff.1 h).1
      interval_cases n <;> first | rfl | exact absurd h (by decide)
    · have : n < 16 := (List.getElem?_eq_some_iff.1 h).1
      interval_cases n <;> exact absurd h (by decide)
  have hx : ∀ {h v : Str} {n : Nat}, Hex4 h n → ['d', 'f', 'f', 'f'] = h ++ v → n = 0xDFFF := by
    rintro h v n ⟨c1, c2, c3, c4, d1, d2, d3, d4, rfl, q1, q2, q3, q4, rfl⟩ e
    injection e with e1 e
    injection e with e2 e
    injection e with e3 e
    injection e with e4 e
    subst e1 e2 e3 e4
    rw [dig _ q1, dig' _ q2, dig' _ q3, dig' _ q4]
  cases h with
  | raw c h1 h2 h3 =>
    rcases rawHead e with ⟨_, h⟩ | h
    · refine h3 ?_
      rw [← Char.ofNat_toNat c, ← h]
      decide
    · exact absurd h (by decide)
  | escape x c h =>
    injection e with _ e
    injection e with e _
    rw [← e] at h
    simp at h
  | unicode h c hh =>
    injection e with _ e
    injection e with _ e
    have := hx hh e
    have hv := c.valid
    have hc : c.toNat = c.val.toNat := rfl
    simp only [UInt32.isValidChar, Nat.isValidChar] at hv
    omega
  | pair h l x y c hx' _ hh _ _ =>
    injection e with _ e
    injection e with _ e
    have e : ['d', 'f', 'f', 'f'] = h ++ (('\\' :: 'u' :: l) ++ v) := by rw [← List.append_assoc]; exact e
    have := hx hh e
    omega""")

ZERO = r"""
abbrev zlog : Double → Double := fun _ => ⟨false, 0⟩
abbrev zEnv := Double.env zlog id id (fun _ _ => ⟨false, 0x3FF0000000000000⟩)
"""
def lost(n, value):
    return ZERO + r"""
example : False := by
  obtain ⟨b, h⟩ := ok_of (x := train zEnv (Builder.new zEnv.ops 3) (List.replicate %d (.accept [0]))) (by decide +kernel)
  obtain ⟨p, h1, h2, h3⟩ := C91_prob_found _ (fun _ => True) (.fresh 3) _ b h
  have e := use (fun b => (match Double.val b.probFound with | .fin p => decide (0 < p ∧ p ≤ 1) | _ => false)) false h (by decide +kernel)
  try dsimp only at e
  rw [h1] at e
  have h4 : (0 : Rat) < p := lt_of_lt_of_le (by positivity) h2
  simp only [h4, h3, and_self, decide_true] at e
  cases e
""" % n
REFUTE["B06"] = lost(8, "")
REFUTE["X01"] = lost(5, "")
for _id in ["B08", "S20"]:
    REFUTE[_id] = ZERO + r"""
abbrev BIG : Double := ⟨false, 0x41E0000000000000⟩
example : False := by
  have hz : LogLaw zlog := fun _ _ _ _ => ⟨0, show Double.val ⟨false, 0⟩ = _ by decide +kernel, by norm_num⟩
  obtain ⟨b, h⟩ := ok_of (x := Builder.ofSaved zEnv.ops ⟨[[0]], [-1]⟩ [0] [[0]] BIG) (by decide +kernel)
  obtain ⟨s, hs⟩ := ok_of (x := (Builder.ofSaved zEnv.ops ⟨[[0]], [-1]⟩ [0] [[0]] BIG).bind fun b => b.cur) (by decide +kernel)
  obtain ⟨r, hr⟩ := ok_of (x := ((Builder.ofSaved zEnv.ops ⟨[[0]], [-1]⟩ [0] [[0]] BIG).bind fun b => b.cur).bind fun s => s.parse zEnv.ops [0] []) (by decide +kernel)
  obtain ⟨b', hb'⟩ := ok_of (x := (Builder.ofSaved zEnv.ops ⟨[[0]], [-1]⟩ [0] [[0]] BIG).bind fun b => b.accept zEnv [0]) (by decide +kernel)
  have e1 := use (fun b => b.stats.length) 1 h (by decide +kernel)
  have e2 := use (fun b => b.stats.length) 1 hb' (by decide +kernel)
  have e3 := use (fun s => (Double.val s.minProb, s.power)) (.fin (2 ^ 31), 0) hs (by decide +kernel)
  have e4 := use (fun r => r.2.1.length) 1 hr (by decide +kernel)
  try dsimp only at e1 e2 e3 e4
  injection e3 with e3 e5
  rw [hs] at hr
  rw [h] at hs hb'
  obtain ⟨s', ids, c⟩ := r
  have := C91_patience_bounded hz b (fun _ => True) (.saved trivial h) [] b rfl s s' hs _ e3 (by norm_num) [0] ids c hr b' hb'
    (by rw [e5, show ids.length = 1 from e4]; norm_num)
  omega
"""
REFUTE["X03"] = ZERO + r"""
abbrev few : List Double → Nat → Double := fun ps _ => if ps.all fun p => (match Double.val p with | .fin x => decide (1 ≤ x) | _ => false) then ⟨false, 0x3FF0000000000000⟩ else ⟨false, 0⟩
example : False := by
  obtain ⟨_, _, _, _, L⟩ := C90_libraries_exist
  have H : LibraryLaws zlog _ id few := ⟨fun _ _ _ _ => ⟨0, show Double.val ⟨false, 0⟩ = _ by decide +kernel, by norm_num⟩, L.sort, fun p => .refl _, fun ps h i => by
    have : (ps.all fun p => (match Double.val p with | .fin x => decide (1 ≤ x) | _ => false)) = true := by
      rw [List.all_eq_true]
      intro p hp
      obtain ⟨x, h1, h2, _⟩ := h p hp
      simp only [h1, h2, decide_true]
    rw [show few ps i = _ from if_pos this]
    exact ⟨1, by decide +kernel, by norm_num, by norm_num⟩⟩
  obtain ⟨x, h1, h2⟩ := C90_pair_score H (f := 0) (ab := 0) (ay := 0) (xb := 0) (xy := 0) le_rfl le_rfl le_rfl le_rfl
  have h1 : StatDict.pairScore (Double.env zlog id id few) 0 0 0 0 0 = .ok x := h1
  have e := use (fun x => x.isFinite) false h1 (by decide +kernel)
  try dsimp only at e
  rw [h2] at e
  cases e
"""
REFUTE["X04"] = r"""
abbrev wlog : Double → Double := fun d => if d.mag.val = 0 then ⟨true, 0x7FF0000000000000⟩ else ⟨false, 0⟩
example : False := by
  obtain ⟨_, _, _, _, L⟩ := C90_libraries_exist
  have H : LibraryLaws wlog _ _ _ := ⟨fun d x h h0 => by
    by_cases hd : d.mag.val = 0
    · exfalso
      obtain ⟨neg, mag⟩ := d
      have hm : mag = 0 := Fin.ext hd
      subst hm
      cases neg
      · rw [show Double.val ⟨false, 0⟩ = .fin 0 by decide +kernel] at h
        cases h
        exact absurd h0 (lt_irrefl _)
      · rw [show Double.val ⟨true, 0⟩ = .fin 0 by decide +kernel] at h
        cases h
        exact absurd h0 (lt_irrefl _)
    · rw [show wlog d = _ from if_neg hd]
      exact ⟨0, by decide +kernel, by norm_num⟩, L.sort, L.order, L.gamma⟩
  have := C90_word_score H (s := ⟨⟨[[0]], [-1]⟩, [1], [1], 1, 0, [], ⟨false, 0⟩, 1⟩) (count := 1) (parse := [0]) (by decide) (by decide) (by decide) (by decide)
    (fun i => by
      unfold StatDict.freq
      match i with
      | .ofNat 0 => decide +kernel
      | .ofNat (n + 1) => simp [rd]
      | .negSucc n => simp [rd])
  rw [show (StatDict.itemScore _ _ _ _ _ : Double).isFinite = false by decide +kernel] at this
  cases this
"""
REFUTE["X05"] = r"""
theorem makes {words : List IntSeq} {outs : List (List Int)} {k : Int × Int} {w : IntSeq} (h : MakesUp words outs k w) :
    k ∈ pairsOf outs ∧ w = (words[k.1.toNat]?).getD [] ++ (words[k.2.toNat]?).getD [] := by
  obtain ⟨h1, u, v, ⟨_, h2⟩, ⟨_, h3⟩, rfl⟩ := h
  exact ⟨h1, by rw [h2, h3]; rfl⟩
example : False := by
  have h : parseAll (meanVariates quickEnv).ops (StatDict.new (.fin (1 / 2))) [[0, 1, 0, 1, 1]] =
      .ok (⟨⟨[[0], [1]], [-1, -1]⟩, [2, 3], [2, 3], 5, 0, [((0, 1), 2), ((1, 0), 1), ((1, 1), 1)], .fin (1 / 2), 5⟩,
        [[0, 1, 0, 1, 1]]) := by decide +kernel
  have C := C89_expand_partial (meanVariates quickEnv) (backwardTies (backwardHash (meanVariates quickEnv))) (meanVariates_laws (Ext.envLaws _)) (backwardTies_laws (backwardHash_laws (meanVariates_laws (Ext.envLaws _))))
    (Ext.scoreLaws _) ⟨rfl, rfl⟩ _ (Or.inl ⟨_, rfl⟩) _ _ _ h (by decide) 1 (by decide)
  obtain ⟨ws, fs, ws', fs', mp, h1, h2, h3, h4, h5⟩ := C (by
    intro k k' w a b _
    obtain ⟨a1, a2⟩ := makes a
    obtain ⟨b1, b2⟩ := makes b
    rw [a2] at b2
    have key : ∀ k ∈ pairsOf [[0, 1, 0, 1, 1]], ∀ k' ∈ pairsOf [[0, 1, 0, 1, 1]],
        ([[0], [1]] : List IntSeq)[k.1.toNat]?.getD [] ++ ([[0], [1]] : List IntSeq)[k.2.toNat]?.getD [] =
          ([[0], [1]] : List IntSeq)[k'.1.toNat]?.getD [] ++ ([[0], [1]] : List IntSeq)[k'.2.toNat]?.getD [] → k = k' := by decide
    exact key k a1 k' b1 b2) (by
    intro k k' w w' a b _ _ hne x x' hx hx'
    obtain ⟨a1, a2⟩ := makes a
    obtain ⟨b1, b2⟩ := makes b
    have key : ∀ k ∈ pairsOf [[0, 1, 0, 1, 1]], ∀ k' ∈ pairsOf [[0, 1, 0, 1, 1]], k ≠ k' →
        (match scoreOfPair (meanVariates quickEnv) [[0, 1, 0, 1, 1]] k, scoreOfPair (meanVariates quickEnv) [[0, 1, 0, 1, 1]] k' with
        | .ok x, .ok x' => quickEnv.ops.lt (quickEnv.ops.neg x) (quickEnv.ops.neg x') || quickEnv.ops.lt (quickEnv.ops.neg x') (quickEnv.ops.neg x)
        | _, _ => true) = true := by decide +kernel
    have := key k a1 k' b1 hne
    rw [hx, hx'] at this
    exact Bool.or_eq_true_iff.1 this)
  have e1 := use (fun r => r.1) [[0], [1], [0, 1]] h1 (by decide +kernel)
  have e2 := use (fun r => r.1.contains [0, 1]) false h2 (by decide +kernel)
  try dsimp only at e1 e2
  have h6 := h5.map Prod.fst
  rw [List.map_fst_zip h3.le, List.map_fst_zip h4.le] at h6
  have h7 : ([0, 1] : IntSeq) ∈ ws' := h6.mem_iff.1 (by rw [e1]; simp)
  rw [List.contains_iff_mem.2 h7] at e2
  cases e2
"""

SCHEDULE = r"""
def journalStep {F : Type} (E : Env F) (b : Builder F) (l : Journal F) (a : Act) : M (Builder F × Journal F) := do
  let b' ← act E b a
  match a with
  | .accept seq => do
    let s ← b.cur
    let (s', ids, _) ← s.parse E.ops seq []
    pure (b', if b'.stats.length = b.stats.length then l.read seq ids else (l.read seq ids).rebuilt E.ops s'.dict.seqs.length)
  | .update => do
    let s ← b.cur
    pure (b', if b'.stats.length = b.stats.length then l else l.rebuilt E.ops s.dict.seqs.length)
  | .freqs => pure (b', l)
def journalOf {F : Type} (E : Env F) (b : Builder F) (l : Journal F) : List Act → M (Builder F × Journal F)
  | [] => .ok (b, l)
  | a :: acts => do
    let (b', l') ← journalStep E b l a
    journalOf E b' l' acts
def asPlanned {F : Type} (E : Env F) (b0 : Builder F) (acts : List Act) (seq : IntSeq) : M Bool := do
  let (b, l) ← journalOf E b0 ⟨[], [], []⟩ acts
  let s ← b.cur
  let (_, ids, _) ← s.parse E.ops seq []
  let b' ← b.accept E seq
  pure (decide (b'.stats.length = b.stats.length + (if dueIn E.ops (stallsIn E.ops l.rates) s.minProb (l.ids ++ ids).length then 1 else 0)))
theorem okBind {α β : Type} (a : α) (f : α → M β) : (Except.ok a >>= f) = f a := rfl
theorem journal_step {F : Type} {E : Env F} {b b' : Builder F} {l l' : Journal F} {a : Act} (hc : ∃ s, b.cur = .ok s) (h : Enters E b l a b' l') :
    journalStep E b l a = .ok (b', l') := by
  cases h with
  | read h1 h2 h3 h4 =>
    unfold journalStep
    simp only [h3, h1, okBind, h2, h4, if_true]
    rfl
  | readRebuilt h1 h2 h3 h4 =>
    unfold journalStep
    simp only [h3, h1, okBind, h2, h4]
    rw [if_neg (by omega)]
    rfl
  | quiet h1 h2 h3 =>
    obtain ⟨s, hs⟩ := hc
    unfold journalStep
    rcases h1 with rfl | rfl
    · simp only [h2, hs, okBind, h3, if_true]
      rfl
    · simp only [h2, okBind]
      rfl
  | rebuilt h1 h2 h3 =>
    unfold journalStep
    simp only [h1, h2, okBind, h3]
    rw [if_neg (by omega)]
    rfl
theorem journal_of {F : Type} {E : Env F} : ∀ {acts : List Act} {b b' : Builder F} {l l' : Journal F},
    (∀ a b1, a ∈ acts → a = .update → act E b1 a ≠ .error .oob → True) → (∀ a ∈ acts, ∃ seq, a = .accept seq) → Entered E b l acts b' l' → journalOf E b l acts = .ok (b', l') := by
  intro acts
  induction acts with
  | nil => intro b b' l l' _ _ h; cases h; rfl
  | cons a acts ih =>
    intro b b' l l' h0 ha h
    cases h with
    | cons h1 h2 =>
      have hc : ∃ s, b.cur = .ok s := by
        obtain ⟨seq, rfl⟩ := ha a (by simp)
        cases h1 with
        | read h1 _ _ _ => exact ⟨_, h1⟩
        | readRebuilt h1 _ _ _ => exact ⟨_, h1⟩
        | quiet h1 _ _ => rcases h1 with h1 | h1 <;> cases h1
      unfold journalOf
      rw [journal_step hc h1, okBind]
      exact ih (fun _ _ _ _ _ => trivial) (fun x hx => ha x (by simp [hx])) h2
theorem arrives : ∀ (seqs : List IntSeq), (∀ s ∈ seqs, ∀ x ∈ s, x = 0 ∨ x = 1) → ActsArrive 2 (seqs.map .accept) 2 := by
  have one : ∀ s : IntSeq, (∀ x ∈ s, x = 0 ∨ x = 1) → Arrive 2 s 2 := by
    intro s
    induction s with
    | nil => intro _; exact .nil
    | cons x s ih =>
      intro h
      rcases h x (by simp) with rfl | rfl
      · exact .known (by decide) (by decide) (ih fun y hy => h y (by simp [hy]))
      · exact .known (by decide) (by decide) (ih fun y hy => h y (by simp [hy]))
  intro seqs
  induction seqs with
  | nil => intro _; exact .nil
  | cons s seqs ih => intro h; exact .accept (one s (h s (by simp))) (ih fun t ht => h t (by simp [ht]))
"""
def schedule(c, size, seqs, last):
    return SCHEDULE + r"""
abbrev cEnv : Env (Ext Rat) := Ext.env Rat (fun x => (x - 1) * (%s))
abbrev SEQS : List IntSeq := %s
abbrev LAST : IntSeq := %s
example : False := by
  obtain ⟨b, l, s, h1, h2, h3, h4, _⟩ := C94_schedule cEnv (Ext.envLaws _) (Ext.scoreLaws _) (Builder.new cEnv.ops %d) 0 2 (.fresh (by decide)) (.accept [0, 1] :: SEQS.map .accept)
    (.accept (.fresh (.fresh .nil)) (arrives SEQS (by decide))) (by decide)
  obtain ⟨b', s', ids, c, e1, e2, e3⟩ := h4 LAST 2 (by cases arrives [LAST] (by decide) with | accept a b => cases b; exact a) (by decide)
  have hj := journal_of (fun _ _ _ _ _ => trivial) (fun a ha => by
    rcases List.mem_cons.1 ha with rfl | ha
    · exact ⟨_, rfl⟩
    · obtain ⟨s, _, rfl⟩ := List.mem_map.1 ha
      exact ⟨s, rfl⟩) h2
  have : asPlanned cEnv (Builder.new cEnv.ops %d) (.accept [0, 1] :: SEQS.map .accept) LAST = .ok true := by
    unfold asPlanned
    simp only [hj, okBind, h3, e1, e2, e3, decide_true]
    rfl
  rw [show asPlanned cEnv (Builder.new cEnv.ops %d) (.accept [0, 1] :: SEQS.map .accept) LAST = .ok false by decide +kernel] at this
  cases this
""" % (c, seqs, last, size, size, size)
REFUTE["B11"] = schedule("11 / 1000", 5, "[[0, 0, 0, 0, 1, 0], [0], [1, 0, 1, 0, 1, 0], [1], [0, 1], [1, 1, 1], [1, 1, 1], [1, 0, 0, 0], [1, 0]]", "[0, 0, 1, 1, 1, 0]")
REFUTE["B12"] = schedule("11 / 1000", 5, "[[1, 0, 1, 1, 1], [0, 0, 0, 0], [0], [0, 0, 1, 0], [1, 0, 0, 0, 1], [1, 1, 0, 1, 1, 1]]", "[0, 0, 1, 1, 1, 0]")
REFUTE["B16"] = schedule("11 / 1000", 5, "[[1, 1, 1], [0, 1, 0, 1], [1, 0, 0, 1, 0], [0, 0, 0, 1, 0, 1], [1, 0, 0, 1, 1], [0, 1, 1, 0, 0], [0, 0, 0, 1, 1], [0, 1, 1, 1], [1, 1], [1]]", "[0, 0, 1, 1, 1, 0]")
REFUTE["B17"] = schedule("11 / 1000", 5, "[[0, 0, 0], [0, 0, 1], [1, 1], [1], [1, 1, 1, 0, 0, 1], [1, 0, 0, 0], [0, 1, 1, 1], [0, 1, 0, 0, 1], [0, 0, 0, 0], [0, 0, 1, 1, 0, 1]]", "[0, 1, 0, 1]")
REFUTE["S17"] = r"""
example : False := by
  have h := C19_as_computed quickEnv.ops (Ext.scoreLaws _) (StatDict.new (.fin (1 / 2))) (Or.inl ⟨_, rfl⟩) [[0, 1, 0], [0]] _ _ rfl
  revert h
  decide +kernel
"""
REFUTE["S21"] = r"""
example : False := by
  obtain ⟨⟨s, outs⟩, hp⟩ := ok_of (x := parseAll quickEnv.ops ⟨⟨[[0], [0, 0]], [-1, 0]⟩, [0, 0], [0, 0], 0, 0, [], .fin (1 / 2), 0⟩ [[0, 0, 0]]) (by decide +kernel)
  obtain ⟨⟨ws, fs, mp⟩, hr⟩ := ok_of (x := s.reduce quickEnv 5) (use (fun r => isOk (r.1.reduce quickEnv 5)) true hp (by decide +kernel))
  obtain ⟨x, h, k⟩ := (C67_kept_score quickEnv (Ext.envLaws _) (Ext.scoreLaws _)
    ⟨⟨[[0], [0, 0]], [-1, 0]⟩, [0, 0], [0, 0], 0, 0, [], .fin (1 / 2), 0⟩
    (Or.inr ⟨[[0], [0, 0]], .fin (1 / 2), none, by decide, by simp, by unfold Closed Knows; decide, by simp, by decide +kernel⟩) [[0, 0, 0]] [[0], [0, 0]]
    (.cons (.known (by decide) (.known (by decide) (.known (by decide) .nil))) .nil) _ _ hp 5 _ _ _ hr 1 [0, 0] rfl (by decide)
    (by
      have := use2 (f := fun r : StatDict (Ext Rat) × List (List Int) => r.1.reduce quickEnv 5) (fun r => r.1) [[0], [0, 0]] hp hr (by decide +kernel)
      rw [show ws = _ from this]
      decide)).2
  have e := use2 (f := fun r : StatDict (Ext Rat) × List (List Int) => scoreOfWord quickEnv.ops r.1 1) (fun x => quickEnv.ops.lt (quickEnv.ops.ofInt 0) x) false hp h
    (by decide +kernel)
  rw [e] at k
  cases k
"""
REFUTE["B10"] = r"""
abbrev nought : Double → Double := fun _ => ⟨false, 0⟩
abbrev zeroEnv : Env Double := Double.env nought id id plainGamma
example : False := by
  have h0 : Double.val ⟨false, 0⟩ = .fin 0 := by decide +kernel
  obtain ⟨b0, hb0⟩ := ok_of (x := Builder.ofSaved zeroEnv.ops ⟨[[0], [1]], [-1, -1]⟩ [1, 1] [[0], [1]] (zeroEnv.ops.ofInt 0)) (by decide +kernel)
  obtain ⟨s, hs⟩ := ok_of (x := b0.cur) (use (fun b : Builder Double => isOk b.cur) true hb0 (by decide +kernel))
  obtain ⟨⟨s', ids, c⟩, hp⟩ := ok_of (x := s.parse zeroEnv.ops [0] []) (use2 (f := Builder.cur) (fun s => isOk (s.parse zeroEnv.ops [0] [])) true hb0 hs (by decide +kernel))
  obtain ⟨b', hb'⟩ := ok_of (x := b0.accept zeroEnv [0]) (use (fun b : Builder Double => isOk (b.accept zeroEnv [0])) true hb0 (by decide +kernel))
  have h := C26_marker_doubles_false (log := nought) (srt := id) (ord := id) (gam := plainGamma) (fun _ _ _ _ => ⟨0, h0, by norm_num⟩) (fun _ _ _ _ _ => ⟨0, h0, le_refl _⟩)
    (fun _ => List.Perm.refl _) (fun _ => List.Perm.refl _) (Builder.new zeroEnv.ops 5) b0 rfl _ rfl _ _ _ hb0 [] b0 b' rfl s s' hs [0] ids c hp
    (by
      have := use2 (f := fun b : Builder Double => b.cur.bind fun s => (s.parse zeroEnv.ops [0] []).bind fun r => .ok (s.power, r)) (b := (s.power, s', ids, c))
        (fun r => decide (0 < r.1 + (r.2.2.1.length : Int))) true hb0 (by rw [hs]; show Except.bind (s.parse zeroEnv.ops [0] []) _ = _; rw [hp]; rfl) (by decide +kernel)
      exact of_decide_eq_true this) hb'
  have e := use2 (f := fun b : Builder Double => b.accept zeroEnv [0]) (fun b => b.stats.length) 1 hb0 hb' (by decide +kernel)
  have e0 := use (fun b : Builder Double => b.stats.length) 1 hb0 (by decide +kernel)
  omega
"""
REFUTE["B07"] = r"""
abbrev linEnv : Env (Ext Rat) := Ext.env Rat (fun x => (x - 1) / 10000)
def asked : M Nat := do
  let s0 ← (Builder.new linEnv.ops 10).cur
  let (s, _) ← s0.parse linEnv.ops [0, 1, 1, 0, 0] []
  let (words, freqs, mp) ← s.expand linEnv (places 10 0 s.dict.seqs.length)
  let s' ← StatDict.ofSeqs words mp (some freqs)
  pure s'.dict.seqs.length
def given : M Nat := do
  let b' ← (Builder.new linEnv.ops 10).accept linEnv [0, 1, 1, 0, 0]
  let s' ← b'.cur
  pure s'.dict.seqs.length
theorem okBind {α β : Type} (a : α) (f : α → M β) : (Except.ok a >>= f) = f a := rfl
example : False := by
  obtain ⟨b', hb'⟩ := ok_of (x := (Builder.new linEnv.ops 10).accept linEnv [0, 1, 1, 0, 0]) (by decide +kernel)
  obtain ⟨s, s', words, freqs, mp, ⟨s0, r, h1, h2⟩, h3, h4, h5⟩ := C70_places_exact (fun x : Rat => (x - 1) / 10000) (Builder.new linEnv.ops 10) (Builder.new linEnv.ops 10) b' 0 0 2
    (.fresh (by decide)) [] .nil rfl (.accept [0, 1, 1, 0, 0])
    (.accept (.fresh (.fresh (.known (by decide) (by decide) (.known (by decide) (by decide) (.known (by decide) (by decide) .nil))))) .nil) (by decide) hb'
    (by rw [show b'.stats.length = 2 from use (fun b : Builder (Ext Rat) => b.stats.length) 2 hb' (by decide +kernel)]; decide)
  have h5 := (show _ ∧ _ from h5).1
  have a1 : asked = .ok s'.dict.seqs.length := by
    unfold asked
    rw [h1, okBind, h2]
    simp only [okBind]
    rw [show s.expand linEnv (places 10 0 s.dict.seqs.length) = .ok (words, freqs, mp) from h5]
    simp only [okBind]
    rw [h3]
    rfl
  have a2 : given = .ok s'.dict.seqs.length := by
    unfold given
    rw [hb', okBind, h4]
    rfl
  rw [← a2] at a1
  exact absurd a1 (by decide +kernel)
"""
REFUTE["Z01"] = r"""
example : False := by
  obtain ⟨m, hf⟩ := ok_of (x := (StringVGram.new quickEnv.ops 4 2 .char).fit quickEnv .rhsFirst (stopAt 100) ["a".toList]) (by decide +kernel)
  obtain ⟨t, toks, i, ws, ids, outs, h1, h2, h3, h4, h5, h6, h7, h8⟩ := C95_int_pipeline_partial quickEnv (Ext.envLaws _) (Ext.scoreLaws _) .char 4 2 (by decide) (by decide)
    (stopAt 100) (stopAt 100) ["a".toList] m (by decide) (fun j hj => by simp [stopAt]; simp at hj; omega) hf
  have ht : toks = [[0]] := (congrArg Prod.snd h1).symm.trans (by decide +kernel)
  subst ht
  have e := use2 (f := fun p : IntVGram (Ext Rat) × Bool => p.1.transform quickEnv.ops (stopAt 100) [[0]]) (fun p => p.2) [[0]] h2 h6 (by decide +kernel)
  have e : ids = _ := e
  subst e
  match h8 with
  | .cons ⟨words, g1, g2, _⟩ .nil =>
    match words, g1 with
    | [w], _ =>
      refine g2 w (by simp) ?_
      have hb : t.backward = [] := (congrArg (fun p => p.1.backward) h1).symm.trans (by rfl)
      have hg : t.backward.get? = fun _ => none := by rw [hb]; funext x; rfl
      simp [Tokenizer.decode, hg]
"""
REFUTE["Z02"] = r"""
abbrev texts : List Str := ["abab".toList, "ba".toList]
abbrev toks2 : List IntSeq := [[0, 1, 0, 1], [1, 0]]
example : False := by
  obtain ⟨m, hf⟩ := ok_of (x := (StringVGram.new quickEnv.ops 4 2 .char).fit quickEnv .rhsFirst (stopAt 100) texts) (by decide +kernel)
  obtain ⟨t, toks, i, ws, ids, outs, h1, h2, h3, h4, _⟩ := C95_int_pipeline_partial quickEnv (Ext.envLaws _) (Ext.scoreLaws _) .char 4 2 (by decide) (by decide) (stopAt 100) (stopAt 100)
    texts m (by decide) (fun j hj => by simp [stopAt]; simp at hj; omega) hf
  have ht : toks = toks2 := (congrArg Prod.snd h1).symm.trans (by decide +kernel)
  have hd : ws.map t.decode = ws.map ((Tokenizer.new .char).transformAll .rhsFirst texts).1.decode := by rw [h1]
  subst ht
  have e := use2 (f := fun p : IntVGram (Ext Rat) × Bool => p.1.alphabet) id [[0], [1], [1, 0]] h2 h3 (by decide +kernel)
  have e : ws = _ := e
  subst e
  have a := use2 (f := fun m : StringVGram (Ext Rat) => m.alphabet) (fun l => decide (l = ["a".toList, "b".toList, "ba".toList])) false hf h4 (by decide +kernel)
  rw [hd] at a
  exact absurd a (by decide +kernel)
"""
REFUTE["Z03"] = fitted(r"""
  obtain ⟨ws, outs, strs, _, h1, h2, _, _, h3⟩ := C96_split_partial quickEnv (Ext.envLaws _) (Ext.scoreLaws _) m _ R (stopAt 100) [[5, 5]] (fun j hj => by simp [stopAt]; simp at hj; omega)
  have e1 := use2 (f := fun p => p.1.transform quickEnv.ops (stopAt 100) [[5, 5]]) (fun p => p.2) [[0, 0]] h h1 (by decide +kernel)
  have e2 := use2 (f := fun p => p.1.transformToString quickEnv.ops (stopAt 100) [[5, 5]]) (fun p => p.2) ["00".toList] h h2 (by decide +kernel)
  try dsimp only at e1 e2
  subst e1 e2
  match h3 with
  | .cons h4 .nil => exact absurd (h4.1 (by decide)).length_eq (by decide +kernel)
""")
REFUTE["Z04"] = r"""
example : False := by
  obtain ⟨m, h⟩ := ok_of (x := IntVGram.ofSaved quickEnv.ops (coderAfter [[0, 1, 2, 3, 4, 5, 6, 7, 8, 9, 10]]) [1, 1, 1, 1, 1, 1, 1, 1, 1, 1, 1]
    [[0], [1], [2], [3], [4], [5], [6], [7], [8], [9], [10]] 20 (quickEnv.ops.ofInt 0) true true) (by decide +kernel)
  have R : Ready quickEnv m [0, 1, 2, 3, 4, 5, 6, 7, 8, 9, 10] := .loaded (by decide) ⟨by decide, by decide, by decide, fun x h0 hx => by
    have hx : x < 11 := hx
    have : x ∈ ([0, 1, 2, 3, 4, 5, 6, 7, 8, 9, 10] : List Int) := by simp; omega
    simpa using this⟩ (by decide) h
  obtain ⟨ws, outs, strs, _, h1, h2, _, _, h3⟩ := C96_split_partial quickEnv (Ext.envLaws _) (Ext.scoreLaws _) m _ R (stopAt 100) [[10]] (fun j hj => by simp [stopAt]; simp at hj; omega)
  have e1 := use2 (f := fun m : IntVGram (Ext Rat) => m.transform quickEnv.ops (stopAt 100) [[10]]) (fun p => p.2) [[10]] h h1 (by decide +kernel)
  have e2 := use2 (f := fun m : IntVGram (Ext Rat) => m.transformToString quickEnv.ops (stopAt 100) [[10]]) (fun p => p.2) [" 01".toList] h h2 (by decide +kernel)
  try dsimp only at e1 e2
  subst e1 e2
  match h3 with
  | .cons h4 .nil =>
    have h5 := h4.1 (by decide)
    rw [show pySplit " 01".toList = ["01".toList] by decide +kernel] at h5
    match h5 with
    | .cons ⟨t, n, hn, hs⟩ .nil =>
      rcases hs with ⟨rfl, _⟩ | ⟨hs, _⟩
      · exact absurd (hn.lead (by decide)) (by decide)
      · exact absurd (congrArg List.head? hs) (by simp)
"""
REFUTE["Z05"] = r"""
theorem okBind' {α β : Type} (a : α) (f : α → M β) : (Except.ok a >>= f) = f a := rfl
def reread : M (List Int × List Int) := do
  let m ← (StringVGram.new quickEnv.ops 4 2 .char).fit quickEnv .rhsFirst (stopAt 100) ["ab".toList]
  let j ← Saver.saveStringVGram quickEnv.ops m
  let m' ← Loader.loadStringVGram quickEnv.ops j
  let m'' ← m'.fit quickEnv .rhsFirst (stopAt 100) ["a".toList, "a".toList, "a".toList]
  pure (m''.int.freqs, m.int.freqs)
example : False := by
  obtain ⟨m, hf⟩ := ok_of (x := (StringVGram.new quickEnv.ops 4 2 .char).fit quickEnv .rhsFirst (stopAt 100) ["ab".toList]) (by decide +kernel)
  have T : TextModel quickEnv .char m _ := .fit (by decide) (by decide) (by decide) (fun j hj => by simp [stopAt]; simp at hj; omega) hf
  obtain ⟨mp, h1, h2⟩ := C97_not_fitted_again_partial quickEnv (Ext.envLaws _) (Ext.scoreLaws _) m _ T
  have hfin := use (fun m : StringVGram (Ext Rat) => m.int.minProb.map quickEnv.ops.isFinite) (some true) hf (by decide +kernel)
  have h1 : m.int.minProb = some mp := h1
  have hfin : m.int.minProb.map quickEnv.ops.isFinite = some true := hfin
  rw [h1] at hfin
  obtain ⟨j, m', ws, h3, h4, _, h5⟩ := h2 (by injection hfin)
  obtain ⟨m'', h6, _, h7, _⟩ := h5 (stopAt 100) ["a".toList, "a".toList, "a".toList]
  have a : reread = .ok (m''.int.freqs, m.int.freqs) := by
    unfold reread
    rw [hf, okBind', h3, okBind', h4, okBind', h6]
    rfl
  have b : reread.map (fun p => decide (p.1 = p.2)) = .ok false := by decide +kernel
  rw [a, h7] at b
  simp [Except.map] at b
"""
REFUTE["Z06"] = r"""
example : False := by
  obtain ⟨reads, h1, h2, h3⟩ := C98_round_partial quickEnv (stopAt 100) (IntVGram.new quickEnv.ops 4 1) [[7]] (by decide) rfl (fun j hj => by simp [stopAt]; simp [IntVGram.new] at hj; omega)
  have h2 : reads.length = 1 := h2
  match reads, h2 with
  | [l], _ =>
    obtain ⟨h4, h5, _⟩ := h3 0 l rfl
    match l, h4 with
    | [s], _ =>
      have h5 : s = [7] := by simpa using h5
      subst h5
      exact absurd (congrArg (Except.map fun p => p.1.freqs) h1) (by decide +kernel)
"""
REFUTE["Z07"] = r"""
example : False := by
  have h := (C99_code_map_partial (F := Rat) [[7, 5]] [(5, 1), (7, 0)] [(5, 1), (7, 0)] (by decide +kernel) [] true).1
  have e : Saver.coderToJson (F := Rat) .null [] true [(5, 1), (7, 0)] [(5, 1), (7, 0)] = .ok (.arr [.int 5, .int 7]) := rfl
  rw [e] at h
  injection h with h
  have h : Json.arr (F := Rat) [.int 5, .int 7] = .arr [.int 7, .int 5] := h
  simp at h
"""
REFUTE["Z08"] = r"""
example : False := by
  have h := (C99_code_map_partial (F := Rat) [[7, 5]] [(7, 0), (5, 1)] [(7, 0), (5, 1)] (by decide +kernel) [] true).1
  have e : Saver.coderToJson (F := Rat) .null [] true [(7, 0), (5, 1)] [(7, 0), (5, 1)] = .ok (.arr [.int 5, .int 7]) := rfl
  rw [e] at h
  injection h with h
  have h : Json.arr (F := Rat) [.int 5, .int 7] = .arr [.int 7, .int 5] := h
  simp at h
"""
REFUTE["Z09"] = r"""
example : False := by
  have h := (C99_code_map_partial (F := Rat) [[7]] [(7, 0)] [(7, 0)] (by decide +kernel) [] true).1
  have e : Saver.coderToJson (F := Rat) .null [] true [(7, 0)] [(7, 0)] = .ok .null := rfl
  rw [e] at h
  injection h with h
  have h : Json.null (F := Rat) = .arr [.int 7] := h
  simp at h
"""
DRAWS = r"""
example : False := by
  have h := (C100_fixed_draws (pow := fun d _ => d) C100_libraries_exist.1 C100_libraries_exist.2).2 5 (fun _ => Double.rounded false 5)
    (fun _ => ⟨5, by decide +kernel, by norm_num, by norm_num⟩)
  exact absurd h (by decide +kernel)
"""
REFUTE["Z10"] = DRAWS
REFUTE["Z11"] = DRAWS
REFUTE["Z12"] = DRAWS
REFUTE["Z13"] = DRAWS
REFUTE["Z14"] = DRAWS
REFUTE["Z15"] = r"""
example : False := by
  have h := (C100_engine (log := roughLog) (sqrt := plainSqrt) (pow := fun d _ => d) 868985321 (by decide)).1
  exact absurd h (by decide +kernel)
"""
REFUTE["Z16"] = DRAWS
REFUTE["Z17"] = DRAWS
REFUTE["Z18"] = DRAWS
REFUTE["Z19"] = DRAWS
REFUTE["Z20"] = DRAWS
REFUTE["Z21"] = DRAWS
NARROW = r"""
set_option synthInstance.maxSize 2000 in
example : False := absurd C101_reject_false (by decide +kernel)
"""
REDUCED = r"""
def fileX : Json (Ext Rat) := .obj [("size".toList, .int 1), ("min_prob".toList, .int 0), ("coder".toList, @CODER@),
  ("alphabet".toList, .arr [@ENTRIES@]), ("fitted".toList, .bool true), ("freqs_computed".toList, .bool true)]
def lookX (m : StringVGram (Ext Rat)) : Int × List Int × List Int × List (List Int) :=
  (m.int.size, m.int.freqs, m.int.coder.encodeImm [7, 8], (m.int.getDict.toOption.map fun d => d.seqs).getD [] ++ [m.tok.forward.map (·.2)])
set_option synthInstance.maxSize 2000 in
example : False := by
  rcases (C101_reduced_partial ratEnv.ops fileX).2.2.2 with ⟨h, _⟩ | h
  · exact absurd (congrArg (fun r => (r.map lookX)) h) (by decide +kernel)
  · exact absurd (congrArg (fun r => (r.map lookX)) h) (by decide +kernel)
"""
ENTRY = '.obj [("freq".toList, .int 1), ("text".toList, .str "a".toList), ("vec".toList, .arr [.int 0])]'
for _k in ("Z22", "Z23", "Z24", "Z25", "Z28", "Z29", "Z30", "Z31"):
    REFUTE[_k] = NARROW
REFUTE["Z26"] = r"""
example : False := by
  rcases (C101_reduced_partial ratEnv.ops (.obj [("size".toList, .num (.fin (-3))), ("min_prob".toList, .int 0)])).1 with ⟨h, h2⟩ | h
  · refine h2 fun x hx => ?_
    obtain ⟨l, e, h1, h3, h4, h5⟩ := hx
    injection h1 with h1
    subst h1
    rcases List.mem_cons.1 h3 with rfl | h3
    · cases h5
      exact ⟨rfl, by unfold IsInt; decide +kernel⟩
    · rcases List.mem_cons.1 h3 with rfl | h3
      · cases h5
      · cases h3
  · exact absurd (congrArg (fun r => (r.map fun m => m.size)) h) (by decide +kernel)
"""
REFUTE["Z27"] = REDUCED.replace("@CODER@", ".arr [.bool true]").replace("@ENTRIES@", ENTRY)
REFUTE["Z32"] = REDUCED.replace("@CODER@", ".arr [.int 7]").replace("@ENTRIES@", ENTRY.replace(".int 0", ".int 4294967296"))
REFUTE["Z33"] = REDUCED.replace("@CODER@", ".arr [.int 7, .int 8]").replace("@ENTRIES@", ENTRY)
REFUTE["Z34"] = REDUCED.replace("@CODER@", ".arr [.int 7]").replace("@ENTRIES@", ENTRY)
REFUTE["Z35"] = REDUCED.replace("@CODER@", ".arr [.int 7]").replace("@ENTRIES@", ENTRY.replace(".arr [.int 0]", ".null"))
TABLE = r"""
def growX (n : Nat) : Option Nat := if n = 0 then some 3 else if n = 4 then some 5 else none
theorem growX_pos : ∀ m n, growX m = some n → 1 ≤ n := by
  intro m n h
  unfold growX at h
  split at h
  · injection h with h; omega
  · split at h
    · injection h with h; omega
    · cases h
def keysX : List Nat := [@KEYS@]
def probeX (t : HashTable Nat) : Nat × List (M Bool) := (t.nodes.length, (List.range 12).map fun k => t.find (@HASH@ k) k)
example : False := by
  obtain ⟨t, h1, h2, h3⟩ := C102_set (fun k : Nat => @HASH@ k) growX growX_pos keysX
  have e : (HashTable.empty.insertAll (fun k : Nat => @HASH@ k) growX keysX).map probeX = .ok ((seen keysX).length, (List.range 12).map fun k => .ok (decide (k ∈ keysX))) := by
    rw [h1]
    unfold probeX
    simp only [Except.map]
    have := h3.length_eq
    rw [List.length_map] at this
    rw [this]
    congr 2
    exact List.map_congr_left fun k _ => h2 k
  exact absurd e (by decide +kernel)
"""
for _k in ("Z39", "Z40", "Z41", "Z42", "Z43", "Z44", "Z45", "Z46", "Z47", "Z48", "Z49", "Z50", "Z51"):
    REFUTE[_k] = TABLE.replace("@KEYS@", "4, 8, 1, 7, 2, 6, 9, 4").replace("@HASH@", "(fun k => k / 2)" if _k == "Z39" else "(fun k => k)")
REFUTE["Z36"] = r"""
example : False := absurd C102_collision.1 (by decide +kernel)
"""
REFUTE["Z37"] = r"""
example : False := absurd (C102_hash [1, 2, 3, 4, 5, 6, 7, 8]).1 (by decide +kernel)
"""
REFUTE["Z38"] = r"""
example : False := by
  have h := (C102_hash []).2 (-1) 2147483647 (by unfold IsInt; decide) (by unfold IsInt; decide) (by decide +kernel)
  exact absurd h (by decide)
"""
for _k in ("Z52", "Z53", "Z54"):
    REFUTE[_k] = r"""
set_option synthInstance.maxSize 2000 in
example : False := by
  have h := fun s => C102_expand vectorHash (fun n => some (n + 7)) (by intro m n h; injection h; omega) ratEnv s 9
  have h' : ∀ s : M (StatDict (Ext Rat)), (s.bind fun s => s.expandTable vectorHash (fun n => some (n + 7)) ratEnv 9) = s.bind fun s => s.expand ratEnv 9 := by
    intro s
    congr 1
    funext s
    exact h s
  have := h' ((StatDict.ofSeqs [[0], [0, 0]] (Ext.fin (1 / 500 : Rat)) none).map fun s =>
    { s with symbolFreqs := [40, 40], parseFreqs := [0, 0], pairs := [((0, 0), 20), ((0, 1), 20), ((1, 0), 20)], power := 60 })
  exact absurd this (by decide +kernel)
"""
for _k, _keys in (("Z43", "4, 2, 0"), ("Z44", "4"), ("Z47", "2, 0, 7, 4, 9")):
    REFUTE[_k] = TABLE.replace("@KEYS@", _keys).replace("@HASH@", "(fun k => k)")
SIGN = r"""
abbrev E0 := Double.env roughLog (insSort (Double.ops roughLog)) (fun p => p) (Gamma.gammas (Double.math roughLog plainSqrt (fun d _ => d)) 1)
example : False := by
  obtain ⟨d, x, e, ex, h1, h2⟩ := C103_score (srt := insSort (Double.ops roughLog)) (ord := fun p => p) (pow := fun d _ => d) C100_libraries_exist.1 C103_logarithms_exist
    C100_libraries_exist.2 0 (f := 1) (ab := @AB@) (ay := @AY@) (xb := @XB@) (xy := @XY@) (by decide) (by decide) (by decide) (by decide) (by decide)
  have hx : (StatDict.pairScore E0 1 @AB@ @AY@ @XB@ @XY@).toOption.map (fun d => (match Double.val d with | .fin x => @SIGN@ | _ => true)) = some true := by decide +kernel
  rw [e] at hx
  simp only [Except.toOption, Option.map_some, Option.some.injEq, ex, decide_eq_true_eq] at hx
  have := @H@ (by unfold @KIND@; decide)
  linarith
"""
def sign(ab, ay, xb, xy, rare):
    t = SIGN
    for k, v in (("AB", ab), ("AY", ay), ("XB", xb), ("XY", xy)):
        t = t.replace("@" + k + "@", str(v))
    return t.replace("@KIND@", "Rare" if rare else "Frequent").replace("@SIGN@", "decide (0 ≤ x)" if rare else "decide (x < 0)").replace("@H@", "h1" if rare else "h2")
REFUTE["Z55"] = sign(1, 0, 30, 0, True)
REFUTE["Z56"] = sign(100, 0, 0, 100, False)
REFUTE["Z57"] = sign(1, 30, 30, 10, True)
REFUTE["Z58"] = sign(100, 0, 0, 100, False)
REFUTE["Z59"] = sign(1, 30, 30, 10, True)
REFUTE["Z60"] = sign(100, 0, 0, 100, False)
REFUTE["Z61"] = SIGN.replace("@AB@", "1").replace("@AY@", "30").replace("@XB@", "30").replace("@XY@", "10").split("  have hx")[0] + r"""
  have hx : (StatDict.pairScore E0 1 1 30 30 10).toOption.map (fun d => (match Double.val d with | .fin x => true | _ => false)) = some false := by decide +kernel
  rw [e] at hx
  simp [Except.toOption, ex] at hx
"""
REFUTE["Z62"] = sign(1, 30, 0, 0, True)
SORTED = r"""
set_option linter.unusedTactic false
set_option linter.unreachableTactic false
theorem natWeak : Weak (fun a b : Nat => decide (a < b)) (fun _ => True) where
  asymm a b _ _ h := by simp at h ⊢; omega
  trans a b c _ _ _ h1 h2 := by simp at h1 h2 ⊢; omega
theorem wrong (L : List Nat) (h : (match @F@ (fun a b : Nat => decide (a < b)) L with | .ok r => decide (r.Perm L) && decide (r.Pairwise fun a b => decide (b < a) = false) | .error _ => false) = false) :
    False := by
  obtain ⟨r, e, hp, hs⟩ := @THM@ natWeak L (fun _ _ => trivial)
  rw [e] at h
  simp only [decide_eq_true hp, decide_eq_true hs] at h
  cases h
example : False := by
  first
  | exact wrong [0, 0] (by decide +kernel)
  | exact wrong [1, 0] (by decide +kernel)
  | exact wrong [3, 1, 4, 1, 5, 9, 2] (by decide +kernel)
  | exact wrong [3, 1, 4, 1, 5, 9, 2, 6] (by decide +kernel)
  | exact wrong (List.replicate 17 0) (by decide +kernel)
  | exact wrong (List.range 17) (by decide +kernel)
  | exact wrong (List.range 17).reverse (by decide +kernel)
  | exact wrong ((List.range 60).map fun i => i * 37 % 61) (by decide +kernel)
  | exact wrong ((List.range 60).map fun i => i * 37 % 23) (by decide +kernel)
  | exact wrong ((List.range 26).map fun i => i * 13 % 27) (by decide +kernel)
  | exact wrong ((List.range 32).map fun i => i * 20 % 33) (by decide +kernel)
"""
for _k in range(63, 77):
    _h = 71 <= _k <= 75
    REFUTE["Z%d" % _k] = SORTED.replace("@F@", "Intro.heapSort" if _h else "Intro.sort").replace("@THM@", "C104_heap" if _h else "C104_sort")
