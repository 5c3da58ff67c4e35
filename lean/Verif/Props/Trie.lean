import Verif.Model.Trie
import Verif.Lemmas.Py
import Verif.Lemmas.Trace
import Verif.Spec

/-! # C54, C55: the trie -/
namespace Props
open Py Model Spec
variable {α : Type} [DecidableEq α]
set_option linter.unusedSectionVars false

/-! ## Specification: a finite set of strings -/

inductive TrieOp (α : Type) where
  | insert (s : List α)
  | delete (s : List α)
  | isInserted (s : List α)
  | isPresent (s : List α)

/-- Answers: `insert` gives nothing, `is_inserted` membership, `is_present` whether the string is a prefix of a stored string (the empty string
always is), `delete` `True` or `None` by the same test. -/
inductive TrieOut where
  | done
  | flag (b : Bool)
  | raised (e : PyErr)
  deriving DecidableEq

/-- `p` is a prefix of a stored string, or empty. -/
def prefixOf (l : List (List α)) (p : List α) : Bool := p.isEmpty || l.any fun s => p.isPrefixOf s

def trieSpec (l : List (List α)) : TrieOp α → List (List α) × TrieOut
  | .insert s => (if s ∈ l then l else l ++ [s], .done)
  | .delete s => (l.filter (· ≠ s), .flag (prefixOf l s))
  | .isInserted s => (l, .flag (decide (s ∈ l)))
  | .isPresent s => (l, .flag (prefixOf l s))

def trieStep (t : Trie α) : TrieOp α → Trie α × TrieOut
  | .insert s => match trieInsert t s with
    | .ok t' => (t', .done)
    | .error e => (t, .raised e)
  | .delete s => match trieDelete t s with
    | .ok (t', b) => (t', .flag b)
    | .error e => (t, .raised e)
  | .isInserted s => (t, .flag (trieInserted t s))
  | .isPresent s => (t, .flag (triePresent t s))

/-! ## Dictionaries -/

def keysOf (d : List (α × Nat)) : List α := d.map Prod.fst

theorem dictGet_isSome (d : List (α × Nat)) (c : α) : (dictGet d c).isSome = true ↔ c ∈ keysOf d := by
  induction d with
  | nil => simp [dictGet, keysOf]
  | cons e d ih =>
    obtain ⟨k, v⟩ := e
    rw [dictGet]
    by_cases h : k = c
    · simp [h, keysOf]
    · rw [if_neg h, ih]
      simp [keysOf, Ne.symm h]

theorem dictGet_none (d : List (α × Nat)) (c : α) : dictGet d c = none ↔ c ∉ keysOf d := by
  rw [← dictGet_isSome]; cases dictGet d c <;> simp

theorem dictSet_new (d : List (α × Nat)) (c : α) (v : Nat) (h : c ∉ keysOf d) : dictSet d c v = d ++ [(c, v)] := by
  induction d with
  | nil => rfl
  | cons e d ih =>
    obtain ⟨k, w⟩ := e
    simp only [keysOf, List.map_cons, List.mem_cons, not_or] at h
    rw [dictSet, if_neg (fun e => h.1 e.symm), ih h.2]; rfl

theorem dictGet_append (d : List (α × Nat)) (c : α) (v : Nat) (h : c ∉ keysOf d) (c' : α) :
    dictGet (d ++ [(c, v)]) c' = if c' = c then some v else dictGet d c' := by
  induction d with
  | nil => simp [dictGet, eq_comm]
  | cons e d ih =>
    obtain ⟨k, w⟩ := e
    simp only [keysOf, List.map_cons, List.mem_cons, not_or] at h
    rw [List.cons_append, dictGet, dictGet, ih h.2]
    by_cases hk : k = c'
    · have : ¬ c' = c := by rw [← hk]; exact fun e => h.1 e.symm
      simp [hk, this]
    · simp [hk]

theorem dictGet_mem {d : List (α × Nat)} {c : α} {v : Nat} (hn : (keysOf d).Nodup) : dictGet d c = some v ↔ (c, v) ∈ d := by
  induction d with
  | nil => simp [dictGet]
  | cons e d ih =>
    obtain ⟨k, w⟩ := e
    simp only [keysOf, List.map_cons, List.nodup_cons] at hn
    rw [dictGet]
    by_cases h : k = c
    · subst h
      rw [if_pos rfl]
      constructor
      · intro e; cases e; simp
      · intro hm
        rcases List.mem_cons.1 hm with e | hm
        · cases e; rfl
        · exact absurd (List.mem_map.2 ⟨_, hm, rfl⟩) hn.1
    · rw [if_neg h, ih hn.2]
      simp [Ne.symm h]

theorem dictPop_spec (d : List (α × Nat)) (c : α) (hn : (keysOf d).Nodup) (hc : c ∈ keysOf d) :
    ∃ d', dictPop d c = .ok d' ∧ (keysOf d').Nodup ∧ (∀ k, k ∈ keysOf d' ↔ k ∈ keysOf d ∧ k ≠ c) ∧
      ∀ c', dictGet d' c' = if c' = c then none else dictGet d c' := by
  induction d with
  | nil => simp [keysOf] at hc
  | cons e d ih =>
    obtain ⟨k, w⟩ := e
    simp only [keysOf, List.map_cons, List.nodup_cons] at hn
    rw [dictPop]
    by_cases h : k = c
    · subst h
      rw [if_pos rfl]
      refine ⟨d, rfl, hn.2, ?_, ?_⟩
      · intro j
        have hn1 : k ∉ keysOf d := hn.1
        simp only [keysOf, List.map_cons, List.mem_cons]
        constructor
        · intro hj
          exact ⟨Or.inr hj, by rintro rfl; exact hn1 hj⟩
        · rintro ⟨hj | hj, hne⟩
          · exact absurd hj hne
          · exact hj
      · intro c'
        rw [dictGet]
        by_cases e : c' = k
        · subst e
          rw [if_pos rfl]
          exact (dictGet_none d c').2 hn.1
        · rw [if_neg e, if_neg (Ne.symm e)]
    · rw [if_neg h]
      have hc' : c ∈ keysOf d := by
        simp only [keysOf, List.map_cons, List.mem_cons] at hc
        rcases hc with hc | hc
        · exact absurd hc.symm h
        · exact hc
      obtain ⟨d', e1, h1, h2, h3⟩ := ih hn.2 hc'
      rw [e1, ok_bind]
      refine ⟨_, rfl, ?_, ?_, ?_⟩
      · simp only [keysOf, List.map_cons, List.nodup_cons]
        exact ⟨fun hk => hn.1 ((h2 k).1 hk).1, h1⟩
      · intro j
        have := h2 j
        simp only [keysOf, List.map_cons, List.mem_cons] at this ⊢
        grind
      · intro c'
        rw [dictGet, dictGet, h3]
        grind

/-! ## Invariant -/

/-- `node p` is the node reached by the string `p`. -/
structure TrieOk (t : Trie α) (node : List α → Option Nat) : Prop where
  root : node [] = some 0
  pos : 0 < t.count
  lt : ∀ p n, node p = some n → n < t.count
  inj : ∀ p q n, node p = some n → node q = some n → p = q
  kids : ∀ p n c, node p = some n → dictGet (t.kids n) c = node (p ++ [c])
  closed : ∀ p c, node p = none → node (p ++ [c]) = none
  nodup : ∀ p n, node p = some n → (keysOf (t.kids n)).Nodup
  char : ∀ p c n, node (p ++ [c]) = some n → t.char n = some c
  rchar : t.char 0 = none

/-- The trie represents the list of strings `l`. -/
structure TrieRep (t : Trie α) (node : List α → Option Nat) (l : List (List α)) : Prop where
  ok : TrieOk t node
  term : ∀ p n, node p = some n → (t.term n = true ↔ p ∈ l)
  ex : ∀ p, (node p).isSome = true ↔ p = [] ∨ ∃ s ∈ l, p <+: s

theorem TrieOk.closed' {t : Trie α} {node : List α → Option Nat} (h : TrieOk t node) (p s : List α) (hp : node p = none) :
    node (p ++ s) = none := by
  induction s generalizing p with
  | nil => simpa using hp
  | cons c s ih =>
    have := ih (p ++ [c]) (h.closed p c hp)
    simpa using this

theorem walk_spec {t : Trie α} {node : List α → Option Nat} (h : TrieOk t node) (s p : List α) (n : Nat) (hp : node p = some n) :
    trieWalk t s n = node (p ++ s) := by
  induction s generalizing p n with
  | nil => simp [trieWalk, hp]
  | cons c s ih =>
    rw [trieWalk, h.kids p n c hp]
    cases hc : node (p ++ [c]) with
    | none => have := h.closed' (p ++ [c]) s hc
              simpa using this.symm
    | some m => have := ih (p ++ [c]) m hc
                simpa using this

theorem TrieRep.inserted {t : Trie α} {node : List α → Option Nat} {l : List (List α)} (h : TrieRep t node l) (s : List α) :
    trieInserted t s = decide (s ∈ l) := by
  rw [trieInserted, walk_spec h.ok s [] 0 h.ok.root, List.nil_append]
  cases hs : node s with
  | none =>
    have : s ∉ l := by
      intro hm
      have := (h.ex s).2 (Or.inr ⟨s, hm, List.prefix_refl s⟩)
      rw [hs] at this; simp at this
    simp [this]
  | some n =>
    rw [Bool.eq_iff_iff, decide_eq_true_eq]; exact h.term s n hs

theorem prefixOf_iff (l : List (List α)) (p : List α) : prefixOf l p = true ↔ p = [] ∨ ∃ s ∈ l, p <+: s := by
  simp [prefixOf, List.isPrefixOf_iff_prefix]

theorem TrieRep.present {t : Trie α} {node : List α → Option Nat} {l : List (List α)} (h : TrieRep t node l) (s : List α) :
    triePresent t s = prefixOf l s := by
  rw [triePresent, walk_spec h.ok s [] 0 h.ok.root, List.nil_append, Bool.eq_iff_iff, prefixOf_iff, h.ex]

theorem trieNew_rep : TrieRep (trieNew : Trie α) (fun p => if p = [] then some 0 else none) [] := by
  refine ⟨⟨rfl, by simp [trieNew], ?_, ?_, ?_, ?_, ?_, ?_, rfl⟩, ?_, ?_⟩
  · intro p n h; simp [trieNew] at h ⊢; omega
  · intro p q n hp hq
    by_cases e : p = [] <;> by_cases e' : q = [] <;> simp_all
  · intro p n c _; simp [trieNew, dictGet]
  · intro p c _; simp
  · intro p n _; simp [trieNew, keysOf]
  · intro p c n h; simp at h
  · intro p n _; simp [trieNew]
  · intro p; by_cases e : p = [] <;> simp [e]

/-! ## insert -/

/-- While walking along `s`, having reached the prefix `p`: the prefixes of `p` exist, and nothing else has been added. -/
structure InsInv (t0 : Trie α) (node0 : List α → Option Nat) (p : List α) (t : Trie α) (walk : Nat) (node : List α → Option Nat) : Prop where
  ok : TrieOk t node
  at_ : node p = some walk
  ex : ∀ q, (node q).isSome = true ↔ (node0 q).isSome = true ∨ q <+: p
  old : ∀ q n, node0 q = some n → node q = some n ∧ t.term n = t0.term n
  new : ∀ q n, node0 q = none → node q = some n → t.term n = false

theorem insertStep_spec {t0 : Trie α} {node0 : List α → Option Nat} {p : List α} {t : Trie α} {walk : Nat} {node : List α → Option Nat}
    (h : InsInv t0 node0 p t walk node) (c : α) :
    ∃ t' w' node', trieInsertStep c (t, walk) = .ok (t', w') ∧ InsInv t0 node0 (p ++ [c]) t' w' node' := by
  unfold trieInsertStep
  dsimp only
  rw [h.ok.kids p walk c h.at_]
  cases hc : node (p ++ [c]) with
  | some m =>
    refine ⟨t, m, node, rfl, h.ok, hc, ?_, h.old, h.new⟩
    intro q
    rw [h.ex]
    constructor
    · rintro (h1 | h1)
      · exact Or.inl h1
      · exact Or.inr (h1.trans (List.prefix_append _ _))
    · rintro (h1 | h1)
      · exact Or.inl h1
      · rcases List.prefix_concat_iff.1 h1 with e | e
        · subst e
          exact (h.ex _).1 (by rw [hc]; rfl)
        · exact Or.inr e
  | none =>
    have hfresh : ∀ q n, node q = some n → n ≠ t.count := fun q n hq => Nat.ne_of_lt (h.ok.lt q n hq)
    have hcp : node (p ++ [c]) = none := hc
    have hk : c ∉ keysOf (t.kids walk) := by
      rw [← dictGet_none, h.ok.kids p walk c h.at_]; exact hc
    have hwl := h.ok.lt p walk h.at_
    have hext : ∀ s, s ≠ [] → node (p ++ [c] ++ s) = none := fun s _ => h.ok.closed' (p ++ [c]) s hcp
    refine ⟨_, _, fun q => if q = p ++ [c] then some t.count else node q, rfl, ⟨?_, ?_, ?_, ?_, ?_, ?_, ?_, ?_, ?_⟩, ?_, ?_, ?_, ?_⟩
    · have : ([] : List α) ≠ p ++ [c] := by simp
      simp only [this, if_false]; exact h.ok.root
    · exact Nat.succ_pos _
    · intro q n hq
      dsimp only at hq ⊢
      split at hq
      · cases hq; omega
      · have := h.ok.lt q n hq; omega
    · intro q q' n hq hq'
      try dsimp only at hq hq'
      split at hq <;> split at hq'
      · simp_all
      · cases hq; exact absurd rfl (hfresh _ _ hq')
      · cases hq'; exact absurd rfl (hfresh _ _ hq)
      · exact h.ok.inj q q' n hq hq'
    · intro q n d hq
      dsimp only at hq ⊢
      split at hq
      · rename_i e
        cases hq
        have hne : t.count ≠ walk := by omega
        have e2 : q ++ [d] ≠ p ++ [c] := by
          rw [e]; intro e'
          have := congrArg List.length e'
          simp at this
        simp only [upd, hne, if_false, if_true, e2, dictGet]
        rw [e]
        exact (hext [d] (by simp)).symm
      · by_cases e : n = walk
        · have hqp : q = p := h.ok.inj q p n hq (by rw [e]; exact h.at_)
          subst hqp
          subst e
          simp only [upd, if_true]
          rw [dictSet_new _ _ _ hk, dictGet_append _ _ _ hk]
          by_cases ed : d = c
          · simp [ed]
          · simp [ed, h.ok.kids q n d hq]
        · have hnc := hfresh q n hq
          have e2 : q ++ [d] ≠ p ++ [c] := by
            intro e'
            have := (List.append_inj' e' rfl).1
            subst this
            rw [h.at_] at hq
            cases hq; exact e rfl
          simp only [upd, e, hnc, e2, if_false]
          exact h.ok.kids q n d hq
    · intro q d hq
      try dsimp only at hq ⊢
      split at hq
      · cases hq
      · have e2 : q ++ [d] ≠ p ++ [c] := by
          intro e'
          have := (List.append_inj' e' rfl).1
          subst this
          rw [h.at_] at hq; cases hq
        rw [if_neg e2]; exact h.ok.closed q d hq
    · intro q n hq
      dsimp only at hq ⊢
      split at hq
      · cases hq
        have hne : t.count ≠ walk := by omega
        simp [upd, hne, keysOf]
      · have hnc := hfresh q n hq
        by_cases e : n = walk
        · subst e
          simp only [upd, if_true]
          rw [dictSet_new _ _ _ hk]
          have := h.ok.nodup p n h.at_
          simp only [keysOf, List.map_append, List.map_cons, List.map_nil]
          refine List.nodup_append.2 ⟨this, by simp, ?_⟩
          intro a ha b hb
          have : b = c := by simpa using hb
          subst this
          rintro rfl
          exact hk ha
        · simp only [upd, e, hnc, if_false]
          exact h.ok.nodup q n hq
    · intro q d n hq
      dsimp only at hq ⊢
      split at hq
      · rename_i e
        cases hq
        have : d = c := by simpa using (List.append_inj' e rfl).2
        simp [upd, this]
      · have hnc := hfresh _ n hq
        simp only [upd, hnc, if_false]
        exact h.ok.char q d n hq
    · have : (0 : Nat) ≠ t.count := by omega
      simp only [upd, this, if_false]; exact h.ok.rchar
    · exact if_pos rfl
    · intro q
      try dsimp only
      by_cases e : q = p ++ [c]
      · simp [e]
      · rw [if_neg e, h.ex, List.prefix_concat_iff]
        simp [e]
    · intro q n hq
      obtain ⟨h1, h2⟩ := h.old q n hq
      have e : q ≠ p ++ [c] := by rintro rfl; rw [hcp] at h1; cases h1
      have hnc := hfresh q n h1
      dsimp only
      rw [if_neg e]
      exact ⟨h1, by simp only [upd, hnc, if_false]; exact h2⟩
    · intro q n hq1 hq2
      dsimp only at hq2 ⊢
      split at hq2
      · cases hq2; simp [upd]
      · have hnc := hfresh q n hq2
        simp only [upd, hnc, if_false]
        exact h.new q n hq1 hq2

theorem insertLoop_spec {t0 : Trie α} {node0 : List α → Option Nat} (s : List α) : ∀ {p : List α} {t : Trie α} {walk : Nat}
    {node : List α → Option Nat}, InsInv t0 node0 p t walk node →
    ∃ t' w' node', forList s (t, walk) trieInsertStep = .ok (t', w') ∧ InsInv t0 node0 (p ++ s) t' w' node' := by
  induction s with
  | nil => intro p t walk node h; exact ⟨t, walk, node, rfl, by simpa using h⟩
  | cons c s ih =>
    intro p t walk node h
    obtain ⟨t1, w1, node1, e1, h1⟩ := insertStep_spec h c
    obtain ⟨t2, w2, node2, e2, h2⟩ := ih h1
    refine ⟨t2, w2, node2, ?_, by simpa using h2⟩
    rw [forList, e1]; exact e2

theorem insert_spec {t : Trie α} {node : List α → Option Nat} {l : List (List α)} (h : TrieRep t node l) (s : List α) :
    ∃ t' node', trieInsert t s = .ok t' ∧ TrieRep t' node' (if s ∈ l then l else l ++ [s]) := by
  have h0 : InsInv t node [] t 0 node := by
    refine ⟨h.ok, h.ok.root, ?_, fun q n hq => ⟨hq, rfl⟩, fun q n h1 h2 => by rw [h1] at h2; cases h2⟩
    intro q
    constructor
    · exact Or.inl
    · rintro (h1 | h1)
      · exact h1
      · rw [List.prefix_nil.1 h1, h.ok.root]; rfl
  obtain ⟨t', w, node', e, hi⟩ := insertLoop_spec s h0
  rw [List.nil_append] at hi
  refine ⟨{ t' with term := upd t'.term w true }, node', by rw [trieInsert, e]; rfl, ?_⟩
  have hmem : ∀ p, p ∈ (if s ∈ l then l else l ++ [s]) ↔ p ∈ l ∨ p = s := by
    intro p
    split
    · constructor
      · exact Or.inl
      · rintro (h1 | rfl)
        · exact h1
        · assumption
    · simp
  refine ⟨⟨hi.ok.root, hi.ok.pos, hi.ok.lt, hi.ok.inj, hi.ok.kids, hi.ok.closed, hi.ok.nodup, hi.ok.char, hi.ok.rchar⟩, ?_, ?_⟩
  · intro p n hp
    rw [hmem]
    dsimp only
    by_cases ew : n = w
    · have : p = s := hi.ok.inj p s n hp (by rw [ew]; exact hi.at_)
      simp [upd, ew, this]
    · have hps : p ≠ s := by rintro rfl; rw [hi.at_] at hp; cases hp; exact ew rfl
      simp only [upd, ew, if_false, hps, or_false]
      cases h1 : node p with
      | some m =>
        obtain ⟨h2, h3⟩ := hi.old p m h1
        rw [hp] at h2; cases h2
        rw [h3]; exact h.term p n h1
      | none =>
        rw [hi.new p n h1 hp]
        simp only [Bool.false_eq_true, false_iff]
        intro hm
        have := (h.ex p).2 (Or.inr ⟨p, hm, List.prefix_refl p⟩)
        rw [h1] at this; simp at this
  · intro p
    rw [hi.ex, h.ex]
    simp only [hmem]
    constructor
    · rintro ((h1 | ⟨q, h1, h2⟩) | h1)
      · exact Or.inl h1
      · exact Or.inr ⟨q, Or.inl h1, h2⟩
      · exact Or.inr ⟨s, Or.inr rfl, h1⟩
    · rintro (h1 | ⟨q, h1 | rfl, h2⟩)
      · exact Or.inl (Or.inl h1)
      · exact Or.inl (Or.inr ⟨q, h1, h2⟩)
      · exact Or.inr h2

/-! ## delete -/

theorem path_spec {t : Trie α} {node : List α → Option Nat} (h : TrieOk t node) (s p : List α) (n : Nat) (acc : List Nat)
    (hp : node p = some n) :
    match node (p ++ s) with
    | none => triePath t s n acc = none
    | some _ => ∃ path, triePath t s n acc = some (acc ++ path) ∧ path.length = s.length + 1 ∧
        ∀ i, i ≤ s.length → path[i]? = node (p ++ s.take i) := by
  induction s generalizing p n acc with
  | nil =>
    rw [List.append_nil, hp]
    refine ⟨[n], rfl, rfl, ?_⟩
    intro i hi
    have : i = 0 := by simpa using hi
    subst this; simp [hp]
  | cons c s ih =>
    rw [triePath, h.kids p n c hp]
    cases hc : node (p ++ [c]) with
    | none =>
      have := h.closed' (p ++ [c]) s hc
      rw [show p ++ c :: s = p ++ [c] ++ s by simp, this]
    | some m =>
      have := ih (p ++ [c]) m (acc ++ [n]) hc
      rw [show p ++ c :: s = p ++ [c] ++ s by simp]
      cases hs : node (p ++ [c] ++ s) with
      | none => rw [hs] at this; exact this
      | some k =>
        rw [hs] at this
        obtain ⟨path, e, h1, h2⟩ := this
        refine ⟨n :: path, by show triePath t s m (acc ++ [n]) = _; rw [e]; simp, by simp [h1], ?_⟩
        intro i hi
        cases i with
        | zero => simp [hp]
        | succ i =>
          rw [List.getElem?_cons_succ, h2 i (by simpa using hi)]
          simp

structure DelInv (l : List (List α)) (s : List α) (path : List Nat) (i : Nat) (t : Trie α) (node : List α → Option Nat) : Prop where
  ok : TrieOk t node
  le : i ≤ s.length
  at_ : ∀ j, j ≤ i → ∃ n, path[j]? = some n ∧ node (s.take j) = some n
  term : ∀ p n, node p = some n → (t.term n = true ↔ p ∈ l)
  ex : ∀ q, (node q).isSome = true ↔ (q = [] ∨ ∃ s' ∈ l, q <+: s') ∨ q <+: s.take i
  last : s.take i ∉ l

theorem trim_spec (l : List (List α)) (s : List α) (path : List Nat) : ∀ (i : Nat) (t : Trie α) (node : List α → Option Nat),
    DelInv l s path i t node → ∃ t' node', trieTrim path i t = .ok t' ∧ TrieRep t' node' l := by
  intro i
  induction i with
  | zero =>
    intro t node h
    refine ⟨t, node, rfl, h.ok, h.term, ?_⟩
    intro q
    rw [h.ex]
    constructor
    · rintro (h1 | h1)
      · exact h1
      · exact Or.inl (by simpa using h1)
    · exact Or.inl
  | succ i ih =>
    intro t node h
    obtain ⟨n, hn1, hn2⟩ := h.at_ (i + 1) (Nat.le_refl _)
    obtain ⟨m, hm1, hm2⟩ := h.at_ i (by omega)
    have hlt : i < s.length := h.le
    have htake : s.take (i + 1) = s.take i ++ [s[i]] := List.take_succ_eq_append_getElem hlt
    rw [trieTrim, rd_of_some hn1, ok_bind]
    by_cases hk : t.kids n = []
    · rw [if_pos (by simp [hk]), rd_of_some hm1, ok_bind]
      have hch : t.char n = some s[i] := h.ok.char (s.take i) s[i] n (by rw [← htake]; exact hn2)
      rw [hch]
      dsimp only
      have hget := h.ok.kids (s.take i) m s[i] hm2
      rw [← htake, hn2] at hget
      obtain ⟨d, e1, d1, d2, d3⟩ := dictPop_spec (t.kids m) s[i] (h.ok.nodup _ m hm2)
        ((dictGet_isSome _ _).1 (by rw [hget]; rfl))
      rw [e1, ok_bind]
      have hnil : ([] : List α) ≠ s.take (i + 1) := by
        intro e
        have := congrArg List.length e
        rw [List.length_take] at this
        simp only [List.length_nil] at this
        omega
      have hinv : TrieOk { t with kids := upd t.kids m d } (fun q => if q = s.take (i + 1) then none else node q) := by
        refine ⟨?_, h.ok.pos, ?_, ?_, ?_, ?_, ?_, ?_, h.ok.rchar⟩
        · rw [if_neg hnil]; exact h.ok.root
        · intro p k hp
          split at hp
          · cases hp
          · exact h.ok.lt p k hp
        · intro p q k hp hq
          split at hp
          · cases hp
          · split at hq
            · cases hq
            · exact h.ok.inj p q k hp hq
        · intro p k c hp
          split at hp
          · cases hp
          · by_cases ek : k = m
            · have : p = s.take i := h.ok.inj p _ k hp (by rw [ek]; exact hm2)
              subst this
              rw [ek]
              simp only [upd, if_true]
              rw [d3, htake]
              by_cases ec : c = s[i]
              · rw [if_pos ec, if_pos (by rw [ec])]
              · rw [if_neg ec, if_neg (fun e => ec (by simpa using (List.append_inj' e rfl).2))]
                exact h.ok.kids _ m c hm2
            · have : p ++ [c] ≠ s.take (i + 1) := by
                rw [htake]
                intro e
                have := (List.append_inj' e rfl).1
                rw [this, hm2] at hp; cases hp; exact ek rfl
              rw [if_neg this]
              simp only [upd, ek, if_false]
              exact h.ok.kids p k c hp
        · intro p c hp
          split at hp
          · rename_i e
            have : p ++ [c] ≠ s.take (i + 1) := by
              rw [← e]; intro e'
              have := congrArg List.length e'
              simp at this
            rw [if_neg this, e, ← h.ok.kids _ n c hn2, hk]; rfl
          · split
            · rfl
            · exact h.ok.closed p c hp
        · intro p k hp
          split at hp
          · cases hp
          · by_cases ek : k = m
            · simp only [upd, ek, if_true]; exact d1
            · simp only [upd, ek, if_false]; exact h.ok.nodup p k hp
        · intro p c k hp
          split at hp
          · cases hp
          · exact h.ok.char p c k hp
      have hterm : ∀ p k, (if p = s.take (i + 1) then none else node p) = some k → (t.term k = true ↔ p ∈ l) := by
        intro p k hp
        split at hp
        · cases hp
        · exact h.term p k hp
      have hex : ∀ q, ((if q = s.take (i + 1) then none else node q).isSome = true ↔ (q = [] ∨ ∃ s' ∈ l, q <+: s') ∨ q <+: s.take i) := by
        intro q
        by_cases e : q = s.take (i + 1)
        · rw [if_pos e]
          constructor
          · intro hh; simp at hh
          · intro hh
            exfalso
            rcases hh with (hh | ⟨s', hs', hpre⟩) | hh
            · exact hnil (by rw [← e, hh])
            · rw [e] at hpre
              obtain ⟨r, hr⟩ := hpre
              cases r with
              | nil => rw [List.append_nil] at hr; rw [← hr] at hs'; exact h.last hs'
              | cons c r =>
                have hsome : (node (s.take (i + 1) ++ [c])).isSome = true :=
                  (h.ex _).2 (Or.inl (Or.inr ⟨s', hs', ⟨r, by rw [← hr]; simp⟩⟩))
                rw [← h.ok.kids _ n c hn2, hk] at hsome
                simp [dictGet] at hsome
            · have := hh.length_le
              rw [e] at this
              simp at this; omega
        · rw [if_neg e, h.ex]
          have : q <+: s.take (i + 1) ↔ q = s.take (i + 1) ∨ q <+: s.take i := by
            rw [htake]; exact List.prefix_concat_iff
          rw [this]
          simp [e]
      by_cases ht : t.term m = true
      · rw [if_pos ht]
        refine ⟨_, _, rfl, hinv, hterm, ?_⟩
        intro q
        rw [hex]
        constructor
        · rintro (h1 | h1)
          · exact h1
          · exact Or.inr ⟨_, (h.term _ m hm2).1 ht, h1⟩
        · exact Or.inl
      · rw [if_neg ht]
        refine ih _ _ ⟨hinv, by omega, ?_, hterm, hex, ?_⟩
        · intro j hj
          obtain ⟨k, hk1, hk2⟩ := h.at_ j (by omega)
          refine ⟨k, hk1, ?_⟩
          rw [if_neg]
          · exact hk2
          · intro e
            have := congrArg List.length e
            simp at this; omega
        · intro hm
          exact ht ((h.term _ m hm2).2 hm)
    · rw [if_neg (by simp [hk])]
      refine ⟨t, node, rfl, h.ok, h.term, ?_⟩
      intro q
      rw [h.ex]
      constructor
      · rintro (h1 | h1)
        · exact h1
        · right
          obtain ⟨⟨c, v⟩, d, hd⟩ := List.exists_cons_of_ne_nil hk
          have hsome : (node (s.take (i + 1) ++ [c])).isSome = true := by
            rw [← h.ok.kids _ n c hn2, hd]; simp [dictGet]
          rcases (h.ex _).1 hsome with (h2 | ⟨s', hs', h2⟩) | h2
          · simp at h2
          · exact ⟨s', hs', h1.trans ((List.prefix_append _ _).trans h2)⟩
          · have := h2.length_le
            simp at this; omega
      · exact Or.inl

theorem delete_spec {t : Trie α} {node : List α → Option Nat} {l : List (List α)} (h : TrieRep t node l) (s : List α) :
    ∃ t' node', trieDelete t s = .ok (t', prefixOf l s) ∧ TrieRep t' node' (l.filter (· ≠ s)) := by
  have hpath := path_spec h.ok s [] 0 [] h.ok.root
  simp only [List.nil_append] at hpath
  have hpre := h.ex s
  rw [← prefixOf_iff] at hpre
  unfold trieDelete
  have hfil : ∀ x, x ∈ l.filter (· ≠ s) ↔ x ∈ l ∧ x ≠ s := by intro x; simp
  cases hs : node s with
  | none =>
    rw [hs] at hpath hpre
    rw [hpath]
    have hno : s ∉ l := fun hm => by
      have := (h.ex s).2 (Or.inr ⟨s, hm, List.prefix_refl s⟩)
      rw [hs] at this; simp at this
    have hp : prefixOf l s = false := by
      rw [← Bool.not_eq_true, ← hpre]; simp
    have hl : l.filter (· ≠ s) = l := by
      rw [List.filter_eq_self]
      intro a ha
      simp only [ne_eq, decide_not, Bool.not_eq_eq_eq_not, Bool.not_true, decide_eq_false_iff_not]
      rintro rfl; exact hno ha
    rw [hp, hl]
    exact ⟨t, node, rfl, h⟩
  | some n =>
    rw [hs] at hpath hpre
    obtain ⟨path, e, h1, h2⟩ := hpath
    rw [e]
    dsimp only
    have hlast : path[s.length]? = some n := by rw [h2 _ (Nat.le_refl _), List.take_length, hs]
    rw [h1, Nat.add_sub_cancel, rd_of_some hlast, ok_bind]
    have hinv : DelInv (l.filter (· ≠ s)) s path s.length { t with term := upd t.term n false } node := by
      refine ⟨⟨h.ok.root, h.ok.pos, h.ok.lt, h.ok.inj, h.ok.kids, h.ok.closed, h.ok.nodup, h.ok.char, h.ok.rchar⟩, Nat.le_refl _, ?_, ?_, ?_, ?_⟩
      · intro j hj
        rw [h2 j hj]
        have : (node (s.take j)).isSome = true := by
          cases hj' : node (s.take j) with
          | some _ => rfl
          | none =>
            have := h.ok.closed' (s.take j) (s.drop j) hj'
            rw [List.take_append_drop, hs] at this; cases this
        obtain ⟨k, hk⟩ := Option.isSome_iff_exists.1 this
        exact ⟨k, hk, hk⟩
      · intro p k hp
        dsimp only
        rw [hfil]
        by_cases ek : k = n
        · have : p = s := h.ok.inj p s k hp (by rw [ek]; exact hs)
          simp [upd, ek, this]
        · have : p ≠ s := by rintro rfl; rw [hs] at hp; cases hp; exact ek rfl
          simp only [upd, ek, if_false]
          rw [h.term p k hp]; simp [this]
      · intro q
        rw [h.ex, List.take_length]
        simp only [hfil]
        constructor
        · rintro (h1 | ⟨s', hs', h1⟩)
          · exact Or.inl (Or.inl h1)
          · by_cases e : s' = s
            · exact Or.inr (e ▸ h1)
            · exact Or.inl (Or.inr ⟨s', ⟨hs', e⟩, h1⟩)
        · rintro ((h1 | ⟨s', ⟨hs', _⟩, h1⟩) | h1)
          · exact Or.inl h1
          · exact Or.inr ⟨s', hs', h1⟩
          · rcases (h.ex s).1 (by rw [hs]; rfl) with e | ⟨s', hs', h3⟩
            · rw [e] at h1; exact Or.inl (List.prefix_nil.1 h1)
            · exact Or.inr ⟨s', hs', h1.trans h3⟩
      · rw [List.take_length, hfil]; simp
    obtain ⟨t', node', e1, h'⟩ := trim_spec _ s path _ _ node hinv
    rw [e1, ok_bind]
    have hp : prefixOf l s = true := hpre.1 rfl
    rw [hp]
    exact ⟨t', node', rfl, h'⟩

/-! ## Histories -/

theorem step_rep_trie {t : Trie α} {l : List (List α)} (h : ∃ node, TrieRep t node l) (op : TrieOp α) :
    (∃ node, TrieRep (trieStep t op).1 node (trieSpec l op).1) ∧ (trieStep t op).2 = (trieSpec l op).2 := by
  obtain ⟨node, h⟩ := h
  cases op with
  | insert s =>
    obtain ⟨t', node', e, h'⟩ := insert_spec h s
    simp only [trieStep, trieSpec, e]
    exact ⟨⟨node', h'⟩, trivial⟩
  | delete s =>
    obtain ⟨t', node', e, h'⟩ := delete_spec h s
    simp only [trieStep, trieSpec, e]
    exact ⟨⟨node', h'⟩, trivial⟩
  | isInserted s =>
    simp only [trieStep, trieSpec, h.inserted s]
    exact ⟨⟨node, h⟩, trivial⟩
  | isPresent s =>
    simp only [trieStep, trieSpec, h.present s]
    exact ⟨⟨node, h⟩, trivial⟩

/-- C54: for every history of `insert`, `delete`, `is_inserted` and `is_present`, over every alphabet, the answers are those of a set of
strings; no call raises. -/
theorem C54_trie (ops : List (TrieOp α)) : trace trieStep trieNew ops = trace trieSpec [] ops :=
  (trace_eq (fun t l => ∃ node, TrieRep t node l) (fun _ _ op h => step_rep_trie h op) ops _ _ ⟨_, trieNew_rep⟩).1

/-! ## strings_with_prefix -/

/-- Neither string is a prefix of the other. -/
def Apart (a b : List α) : Prop := ¬ a <+: b ∧ ¬ b <+: a

def itemPath (t : Trie α) (x : Nat × List α) : List α := x.2 ++ (t.char x.1).toList

/-- State of `_collect` from the node of the string `r`: `done` are the strings of the nodes seen. -/
structure ColInv (t : Trie α) (node : List α → Option Nat) (r : List α) (init : List (Option (List α)))
    (st : List (Nat × List α) × List (Option (List α))) (done : List (List α)) : Prop where
  item : ∀ x ∈ st.1, ∃ c, t.char x.1 = some c ∧ node (x.2 ++ [c]) = some x.1
  under : ∀ x ∈ st.1, r <+: itemPath t x
  apart : (st.1.map (itemPath t)).Pairwise Apart
  doneEx : ∀ d ∈ done, (node d).isSome = true ∧ r <+: d
  doneNodup : done.Nodup
  fresh : ∀ d ∈ done, ∀ x ∈ st.1, ¬ itemPath t x <+: d
  cover : ∀ q, (node q).isSome = true → r <+: q → q ∈ done ∨ ∃ x ∈ st.1, itemPath t x <+: q
  out : st.2 = init ++ (done.filter fun d => match node d with
    | some n => t.term n
    | none => false).map some

theorem nodup_subset_length {β : Type} [DecidableEq β] {l m : List β} (hl : l.Nodup) (h : ∀ x ∈ l, x ∈ m) : l.length ≤ m.length := by
  induction l generalizing m with
  | nil => simp
  | cons x l ih =>
    have hx := h x (by simp)
    have hl' := List.nodup_cons.1 hl
    have : l.length ≤ (m.erase x).length := by
      apply ih hl'.2
      intro y hy
      have : y ≠ x := by rintro rfl; exact hl'.1 hy
      exact (List.mem_erase_of_ne this).2 (h y (by simp [hy]))
    rw [List.length_erase_of_mem hx] at this
    have := List.length_pos_of_mem hx
    simp only [List.length_cons]; omega

/-- Distinct existing strings have distinct nodes, so there are at most as many as nodes. -/
theorem TrieOk.length_le {t : Trie α} {node : List α → Option Nat} (h : TrieOk t node) {l : List (List α)} (hl : l.Nodup)
    (hex : ∀ d ∈ l, (node d).isSome = true) : l.length ≤ t.count := by
  have h1 : (l.map fun d => (node d).getD 0).Nodup := by
    rw [List.nodup_iff_pairwise_ne, List.pairwise_map]
    refine (List.nodup_iff_pairwise_ne.1 hl).imp_of_mem ?_
    intro a b ha hb hne e
    obtain ⟨n, hn⟩ := Option.isSome_iff_exists.1 (hex a ha)
    obtain ⟨m, hm⟩ := Option.isSome_iff_exists.1 (hex b hb)
    rw [hn, hm] at e
    simp only [Option.getD_some] at e
    subst e
    exact hne (h.inj a b n hn hm)
  have := nodup_subset_length (m := List.range t.count) h1 (by
    intro x hx
    obtain ⟨d, hd, rfl⟩ := List.mem_map.1 hx
    obtain ⟨n, hn⟩ := Option.isSome_iff_exists.1 (hex d hd)
    rw [hn, List.mem_range]
    exact h.lt d n hn)
  simpa using this

theorem foldl_push (d : List (α × Nat)) (w : List α) (stack : List (Nat × List α)) :
    d.foldl (fun stack child => (child.2, w) :: stack) stack = (d.map fun child => (child.2, w)).reverse ++ stack := by
  induction d generalizing stack with
  | nil => rfl
  | cons e d ih => rw [List.foldl_cons, ih]; simp

theorem Apart.symm {a b : List α} (h : Apart a b) : Apart b a := ⟨h.2, h.1⟩

theorem collectStep_spec {t : Trie α} {node : List α → Option Nat} (h : TrieOk t node) {r : List α} {init : List (Option (List α))}
    {x : Nat × List α} {stack : List (Nat × List α)} {out : List (Option (List α))} {done : List (List α)}
    (hc : ColInv t node r init (x :: stack, out) done) :
    ∃ st' w, trieCollectStep t (x :: stack, out) = .ok st' ∧ ColInv t node r init st' (done ++ [w]) := by
  obtain ⟨n, pr⟩ := x
  obtain ⟨h1, h2, h3, h4, h5, h6, h7, h8⟩ := hc
  obtain ⟨c, hch, hn⟩ := h1 (n, pr) (by simp)
  dsimp only at h1 h2 h3 h6 h7 h8 hch hn
  have hw : itemPath t (n, pr) = pr ++ [c] := by simp [itemPath, hch]
  generalize hwd : pr ++ [c] = w at *
  have hnd := h.nodup w n hn
  have hkid : ∀ k m, (k, m) ∈ t.kids n ↔ node (w ++ [k]) = some m := by
    intro k m
    rw [← dictGet_mem hnd, h.kids w n k hn]
  have hpath : ∀ k m, (k, m) ∈ t.kids n → itemPath t (m, w) = w ++ [k] := by
    intro k m hm
    have := h.char w k m ((hkid k m).1 hm)
    simp [itemPath, this]
  simp only [List.map_cons, List.pairwise_cons] at h3
  rw [hw] at h3
  have hapart : ∀ y ∈ stack, Apart w (itemPath t y) := fun y hy => h3.1 _ (List.mem_map.2 ⟨y, hy, rfl⟩)
  have hwr : r <+: w := by have := h2 (n, pr) (by simp); rwa [hw] at this
  have hfw : ∀ d ∈ done, ¬ w <+: d := fun d hd => by have := h6 d hd (n, pr) (by simp); rwa [hw] at this
  -- members of the new stack
  have hmem : ∀ y, y ∈ ((t.kids n).map fun child => (child.2, w)).reverse ++ stack ↔ (∃ k m, (k, m) ∈ t.kids n ∧ y = (m, w)) ∨ y ∈ stack := by
    intro y
    rw [List.mem_append, List.mem_reverse, List.mem_map]
    constructor
    · rintro (⟨⟨k, m⟩, h1, h2⟩ | h1)
      · exact Or.inl ⟨k, m, h1, h2.symm⟩
      · exact Or.inr h1
    · rintro (⟨k, m, h1, h2⟩ | h1)
      · exact Or.inl ⟨⟨k, m⟩, h1, h2.symm⟩
      · exact Or.inr h1
  refine ⟨(((t.kids n).map fun child => (child.2, w)).reverse ++ stack, if t.term n then out ++ [some w] else out), w, ?_, ?_⟩
  · unfold trieCollectStep
    dsimp only
    rw [hch]
    dsimp only
    rw [hwd, foldl_push]
  · refine ⟨?_, ?_, ?_, ?_, ?_, ?_, ?_, ?_⟩
    · intro y hy
      rcases (hmem y).1 hy with ⟨k, m, hm, rfl⟩ | hy
      · have := (hkid k m).1 hm
        exact ⟨k, h.char w k m this, this⟩
      · exact h1 y (by simp [hy])
    · intro y hy
      rcases (hmem y).1 hy with ⟨k, m, hm, rfl⟩ | hy
      · rw [hpath k m hm]; exact hwr.trans (List.prefix_append _ _)
      · exact h2 y (by simp [hy])
    · dsimp only
      rw [List.map_append, List.pairwise_append]
      refine ⟨?_, h3.2, ?_⟩
      · rw [List.map_reverse, List.pairwise_reverse, List.pairwise_map, List.pairwise_map]
        have hp : (t.kids n).Pairwise fun a b => a.1 ≠ b.1 := by
          have := List.nodup_iff_pairwise_ne.1 hnd
          rwa [keysOf, List.pairwise_map] at this
        refine hp.imp_of_mem ?_
        rintro ⟨k, m⟩ ⟨k', m'⟩ ha hb hne
        dsimp only
        rw [hpath k m ha, hpath k' m' hb]
        constructor
        · intro hpre
          have := List.IsPrefix.eq_of_length hpre (by simp)
          exact hne (by simpa using this.symm)
        · intro hpre
          have := List.IsPrefix.eq_of_length hpre (by simp)
          exact hne (by simpa using this)
      · intro a ha b hb
        obtain ⟨y, hy, rfl⟩ := List.mem_map.1 ha
        obtain ⟨z, hz, rfl⟩ := List.mem_map.1 hb
        obtain ⟨⟨k, m⟩, hkm, rfl⟩ := List.mem_map.1 (List.mem_reverse.1 hy)
        have hz' := hapart z hz
        rw [hpath k m hkm]
        constructor
        · intro hpre; exact hz'.1 ((List.prefix_append _ _).trans hpre)
        · intro hpre
          rcases List.prefix_concat_iff.1 hpre with e | e
          · rw [e] at hz'; exact hz'.1 (List.prefix_append _ _)
          · exact hz'.2 e
    · intro d hd
      rcases List.mem_append.1 hd with hd | hd
      · exact h4 d hd
      · have : d = w := by simpa using hd
        subst this
        exact ⟨by rw [hn]; rfl, hwr⟩
    · refine List.nodup_append.2 ⟨h5, by simp, ?_⟩
      intro a ha b hb
      have : b = w := by simpa using hb
      subst this
      rintro rfl
      exact hfw a ha (List.prefix_refl _)
    · intro d hd y hy
      have hlen : ∀ k m, (k, m) ∈ t.kids n → ¬ itemPath t (m, w) <+: w := by
        intro k m hm hpre
        rw [hpath k m hm] at hpre
        have := hpre.length_le
        simp at this; omega
      rcases List.mem_append.1 hd with hd | hd
      · rcases (hmem y).1 hy with ⟨k, m, hm, rfl⟩ | hy
        · intro hpre
          rw [hpath k m hm] at hpre
          exact hfw d hd ((List.prefix_append _ _).trans hpre)
        · exact h6 d hd y (by simp [hy])
      · have : d = w := by simpa using hd
        subst this
        rcases (hmem y).1 hy with ⟨k, m, hm, rfl⟩ | hy
        · exact hlen k m hm
        · exact (hapart y hy).2
    · intro q hq1 hq2
      rcases h7 q hq1 hq2 with hq | ⟨y, hy, hpre⟩
      · exact Or.inl (List.mem_append_left _ hq)
      · rcases List.mem_cons.1 hy with rfl | hy
        · rw [hw] at hpre
          obtain ⟨s, rfl⟩ := hpre
          cases s with
          | nil => left; simp
          | cons k s =>
            right
            have hk : (node (w ++ [k])).isSome = true := by
              cases hk : node (w ++ [k]) with
              | some _ => rfl
              | none =>
                have := h.closed' (w ++ [k]) s hk
                rw [show w ++ [k] ++ s = w ++ k :: s by simp] at this
                rw [this] at hq1; simp at hq1
            obtain ⟨m, hm⟩ := Option.isSome_iff_exists.1 hk
            have hm' := (hkid k m).2 hm
            refine ⟨(m, w), (hmem _).2 (Or.inl ⟨k, m, hm', rfl⟩), ?_⟩
            rw [hpath k m hm']
            exact ⟨s, by simp⟩
        · exact Or.inr ⟨y, (hmem _).2 (Or.inr hy), hpre⟩
    · dsimp only
      rw [List.filter_append, List.map_append, ← List.append_assoc, ← h8]
      by_cases ht : t.term n = true
      · simp [hn, ht]
      · simp [hn, ht]

theorem collectLoop_spec {t : Trie α} {node : List α → Option Nat} (h : TrieOk t node) {r : List α} {init : List (Option (List α))} :
    ∀ (fuel : Nat) (st : List (Nat × List α) × List (Option (List α))) (done : List (List α)), ColInv t node r init st done →
      t.count < done.length + fuel →
      ∃ st' done', whileLoop fuel (fun (st : List (Nat × List α) × List (Option (List α))) => .ok !st.1.isEmpty) (trieCollectStep t) st = .ok st' ∧
        ColInv t node r init st' done' ∧ st'.1 = [] := by
  intro fuel
  induction fuel with
  | zero =>
    intro st done hc hf
    have := h.length_le hc.doneNodup fun d hd => (hc.doneEx d hd).1
    omega
  | succ fuel ih =>
    intro st done hc hf
    obtain ⟨stack, out⟩ := st
    cases stack with
    | nil => exact ⟨([], out), done, rfl, hc, rfl⟩
    | cons x stack =>
      obtain ⟨st1, w, e1, hc1⟩ := collectStep_spec h hc
      obtain ⟨st2, done2, e2, hc2, h2⟩ := ih st1 _ hc1 (by simp; omega)
      refine ⟨st2, done2, ?_, hc2, h2⟩
      rw [whileLoop, ok_bind]
      simp only [List.isEmpty_cons, Bool.not_false, if_true]
      rw [e1]; exact e2

/-- The stored strings among `done`. -/
def termOnly (t : Trie α) (node : List α → Option Nat) (done : List (List α)) : List (List α) :=
  done.filter fun d => match node d with
    | some n => t.term n
    | none => false

theorem collect_spec {t : Trie α} {node : List α → Option Nat} (h : TrieOk t node) (p : List α) (c : α) (m : Nat)
    (hm : node (p ++ [c]) = some m) (init : List (Option (List α))) :
    ∃ done : List (List α), trieCollect t p m init = .ok (init ++ (termOnly t node done).map some) ∧ done.Nodup ∧
      ∀ q, q ∈ done ↔ (node q).isSome = true ∧ p ++ [c] <+: q := by
  have hch := h.char p c m hm
  have hip : itemPath t (m, p) = p ++ [c] := by simp [itemPath, hch]
  obtain ⟨st, done, e, hc, hst⟩ := collectLoop_spec h (r := p ++ [c]) (init := init) (t.count + 1) ([(m, p)], init) []
    ⟨by simpa using ⟨c, hch, hm⟩, by simp [hip], by simp, by simp, by simp, by simp, by
      intro q _ hq
      exact Or.inr ⟨(m, p), by simp, by rw [hip]; exact hq⟩, by simp⟩ (by simp)
  obtain ⟨stack, out⟩ := st
  dsimp only at hst
  subst hst
  refine ⟨done, ?_, hc.doneNodup, ?_⟩
  · rw [trieCollect, e, ok_bind]
    dsimp only
    rw [show out = _ from hc.out]; rfl
  · intro q
    constructor
    · exact hc.doneEx q
    · rintro ⟨h1, h2⟩
      rcases hc.cover q h1 h2 with h3 | ⟨x, hx, _⟩
      · exact h3
      · simp at hx

theorem strings_spec {t : Trie α} {node : List α → Option Nat} {l : List (List α)} (h : TrieRep t node l) (p : List α) :
    ∃ ext : List (List α), trieStrings t p = .ok ((if p ∈ l then [p.getLast?.map fun c => [c]] else []) ++ ext.map some) ∧ ext.Nodup ∧
      ∀ s, s ∈ ext ↔ s ∈ l ∧ p <+: s ∧ s ≠ p := by
  have hstored : ∀ s, s ∈ l → (node s).isSome = true := fun s hs => (h.ex s).2 (Or.inr ⟨s, hs, List.prefix_refl s⟩)
  unfold trieStrings
  rw [walk_spec h.ok p [] 0 h.ok.root, List.nil_append]
  cases hp : node p with
  | none =>
    have hno : ∀ s, s ∈ l → ¬ p <+: s := by
      rintro s hs ⟨r, rfl⟩
      have := hstored _ hs
      rw [h.ok.closed' p r hp] at this; simp at this
    refine ⟨[], ?_, List.nodup_nil, ?_⟩
    · rw [if_neg (fun hm => hno p hm (List.prefix_refl p))]; rfl
    · intro s
      constructor
      · intro h; simp at h
      · rintro ⟨h1, h2, _⟩; exact absurd h2 (hno s h1)
  | some n =>
    dsimp only
    have hchar : t.char n = p.getLast? := by
      cases hl : p.getLast? with
      | none =>
        have := List.getLast?_eq_none_iff.1 hl
        subst this
        rw [h.ok.root] at hp; cases hp
        exact h.ok.rchar
      | some c =>
        obtain ⟨ys, rfl⟩ := List.getLast?_eq_some_iff.1 hl
        exact h.ok.char ys c n hp
    have hinit : (if t.term n = true then [(t.char n).map fun c => [c]] else []) =
        (if p ∈ l then [p.getLast?.map fun c => [c]] else []) := by
      rw [hchar]
      by_cases hm : p ∈ l
      · rw [if_pos hm, if_pos ((h.term p n hp).2 hm)]
      · rw [if_neg hm, if_neg (fun e => hm ((h.term p n hp).1 e))]
    rw [hinit]
    generalize (if p ∈ l then [p.getLast?.map fun c => [c]] else []) = init
    have hnd := h.ok.nodup p n hp
    have hkid : ∀ k m, (k, m) ∈ t.kids n ↔ node (p ++ [k]) = some m := by
      intro k m
      rw [← dictGet_mem hnd, h.ok.kids p n k hp]
    have loop : ∀ (rest pre : List (α × Nat)) (done : List (List α)), pre ++ rest = t.kids n → done.Nodup →
        (∀ q, q ∈ done ↔ (node q).isSome = true ∧ ∃ ch ∈ pre, p ++ [ch.1] <+: q) →
        ∃ done' : List (List α), (forList rest (init ++ (termOnly t node done).map some) fun child strings => trieCollect t p child.2 strings) =
            .ok (init ++ (termOnly t node done').map some) ∧ done'.Nodup ∧
          ∀ q, q ∈ done' ↔ (node q).isSome = true ∧ ∃ ch ∈ t.kids n, p ++ [ch.1] <+: q := by
      intro rest
      induction rest with
      | nil =>
        intro pre done e1 e2 e3
        rw [List.append_nil] at e1
        subst e1
        exact ⟨done, rfl, e2, e3⟩
      | cons ch rest ih =>
        intro pre done e1 e2 e3
        obtain ⟨k, m⟩ := ch
        have hkm : (k, m) ∈ t.kids n := by rw [← e1]; simp
        obtain ⟨d, f1, f2, f3⟩ := collect_spec h.ok p k m ((hkid k m).1 hkm) (init ++ (termOnly t node done).map some)
        have hkn : ∀ ch ∈ pre, ch.1 ≠ k := by
          intro ch hch
          have hn : (keysOf (pre ++ (k, m) :: rest)).Nodup := by rw [e1]; exact hnd
          simp only [keysOf, List.map_append, List.map_cons] at hn
          exact (List.nodup_append.1 hn).2.2 _ (List.mem_map.2 ⟨ch, hch, rfl⟩) _ (by simp)
        obtain ⟨done', g1, g2, g3⟩ := ih (pre ++ [(k, m)]) (done ++ d) (by rw [← e1]; simp) (by
          refine List.nodup_append.2 ⟨e2, f2, ?_⟩
          intro a ha b hb
          rintro rfl
          obtain ⟨_, ch, hch, hpre⟩ := (e3 a).1 ha
          have hpre' := ((f3 a).1 hb).2
          have := (List.prefix_of_prefix_length_le hpre hpre' (by simp)).eq_of_length (by simp)
          exact hkn ch hch (by simpa using this)) (by
          intro q
          rw [List.mem_append, e3, f3]
          simp only [List.mem_append, List.mem_singleton]
          constructor
          · rintro (⟨h1, ch, h2, h3⟩ | ⟨h1, h2⟩)
            · exact ⟨h1, ch, Or.inl h2, h3⟩
            · exact ⟨h1, (k, m), Or.inr rfl, h2⟩
          · rintro ⟨h1, ch, h2 | rfl, h3⟩
            · exact Or.inl ⟨h1, ch, h2, h3⟩
            · exact Or.inr ⟨h1, h3⟩)
        refine ⟨done', ?_, g2, g3⟩
        rw [forList]
        dsimp only
        rw [f1, ok_bind, ← g1]
        congr 1
        rw [termOnly, termOnly, termOnly, List.filter_append, List.map_append, List.append_assoc]
    obtain ⟨done, e, h1, h2⟩ := loop (t.kids n) [] [] rfl List.nodup_nil (by simp)
    refine ⟨termOnly t node done, ?_, h1.filter _, ?_⟩
    · have e' := e
      simp only [termOnly, List.filter_nil, List.map_nil, List.append_nil] at e'
      exact e'
    · intro s
      rw [termOnly, List.mem_filter, h2]
      constructor
      · rintro ⟨⟨h3, ch, _, h4⟩, h5⟩
        obtain ⟨m, hm⟩ := Option.isSome_iff_exists.1 h3
        rw [hm] at h5
        refine ⟨(h.term s m hm).1 h5, (List.prefix_append _ _).trans h4, ?_⟩
        rintro rfl
        have := h4.length_le
        simp at this; omega
      · rintro ⟨h3, ⟨r, rfl⟩, h5⟩
        have h6 := hstored _ h3
        obtain ⟨m, hm⟩ := Option.isSome_iff_exists.1 h6
        cases r with
        | nil => simp at h5
        | cons c r =>
          refine ⟨⟨h6, ?_⟩, by rw [hm]; exact (h.term _ m hm).2 h3⟩
          cases hk : node (p ++ [c]) with
          | none =>
            have := h.ok.closed' (p ++ [c]) r hk
            rw [show p ++ [c] ++ r = p ++ c :: r by simp] at this
            rw [this] at h6; simp at h6
          | some k =>
            exact ⟨(c, k), (hkid c k).2 hk, ⟨r, by simp⟩⟩

/-- The trie after a history, and the strings the history has left stored. -/
def trieAfter (ops : List (TrieOp α)) : Trie α := final trieStep trieNew ops
def storedAfter (ops : List (TrieOp α)) : List (List α) := final trieSpec [] ops

theorem after_rep_trie (ops : List (TrieOp α)) : ∃ node, TrieRep (trieAfter ops) node (storedAfter ops) :=
  (trace_eq (fun t l => ∃ node, TrieRep t node l) (fun _ _ op h => step_rep_trie h op) ops _ _ ⟨_, trieNew_rep⟩).2

/-- What the code answers after every history and for every prefix `p`: each stored proper extension of `p` once and, if `p` itself is stored,
in front of them the *last character* of `p` (Python's `None` for the empty string) instead of `p`. -/
theorem C55_exact (ops : List (TrieOp α)) (p : List α) :
    ∃ ext : List (List α), trieStrings (trieAfter ops) p =
        .ok ((if p ∈ storedAfter ops then [p.getLast?.map fun c => [c]] else []) ++ ext.map some) ∧ ext.Nodup ∧
      ∀ s, s ∈ ext ↔ s ∈ storedAfter ops ∧ p <+: s ∧ s ≠ p := by
  obtain ⟨node, h⟩ := after_rep_trie ops
  exact strings_spec h p

/-- The answer lists exactly the stored strings with prefix `p`, each once. -/
def ListsExtensions (ops : List (TrieOp α)) (p : List α) : Prop :=
  ∃ ext : List (List α), trieStrings (trieAfter ops) p = .ok (ext.map some) ∧ ext.Nodup ∧ ∀ s, s ∈ ext ↔ s ∈ storedAfter ops ∧ p <+: s

/-- The full property. -/
def C55_full : Prop := ∀ (ops : List (TrieOp Char)) (p : List Char), ListsExtensions ops p

/-- C55 as far as it holds: after every history, for every prefix that is not itself stored or has exactly one character. Missing: a stored
prefix of another length, for which the property is false (`C55_full_false`). -/
theorem C55_strings_with_prefix_partial (ops : List (TrieOp α)) (p : List α) (hp : p ∉ storedAfter ops ∨ p.length = 1) :
    ListsExtensions ops p := by
  obtain ⟨ext, e, h1, h2⟩ := C55_exact ops p
  by_cases hm : p ∈ storedAfter ops
  · have hlen : p.length = 1 := by
      rcases hp with h | h
      · exact absurd hm h
      · exact h
    obtain ⟨c, rfl⟩ := List.length_eq_one_iff.1 hlen
    refine ⟨[c] :: ext, by rw [e, if_pos hm]; rfl, List.nodup_cons.2 ⟨fun h => ((h2 _).1 h).2.2 rfl, h1⟩, ?_⟩
    intro s
    rw [List.mem_cons, h2]
    constructor
    · rintro (rfl | ⟨a, b, _⟩)
      · exact ⟨hm, List.prefix_refl _⟩
      · exact ⟨a, b⟩
    · rintro ⟨a, b⟩
      by_cases e : s = [c]
      · exact Or.inl e
      · exact Or.inr ⟨a, b, e⟩
  · refine ⟨ext, by rw [e, if_neg hm]; rfl, h1, ?_⟩
    intro s
    rw [h2]
    constructor
    · rintro ⟨a, b, _⟩; exact ⟨a, b⟩
    · rintro ⟨a, b⟩
      exact ⟨a, b, by rintro rfl; exact hm a⟩

/-- With only `"ab"` stored, `strings_with_prefix("ab")` is `["b"]`; with `""` stored, `strings_with_prefix("")` is `[None]`. -/
theorem C55_stored_prefix : trieStrings (trieAfter [.insert ['a', 'b']]) ['a', 'b'] = .ok [some ['b']] ∧
    trieStrings (trieAfter [.insert []] : Trie Char) [] = .ok [none] := by
  constructor <;> rfl

theorem C55_full_false : ¬ C55_full := by
  intro h
  obtain ⟨ext, e, _, h2⟩ := h [.insert ['a', 'b']] ['a', 'b']
  rw [C55_stored_prefix.1] at e
  have e1 : ext = [['b']] := by
    cases ext with
    | nil => cases e
    | cons x l =>
      cases l with
      | nil => cases e; rfl
      | cons y l => cases e
  have := (h2 ['b']).1 (by simp [e1])
  exact absurd this.2 (by decide)

/-! ### Non-vacuity -/

example : storedAfter [.insert ['a', 'b'], .insert ['a'], .insert ['b'], .delete ['b']] = [['a', 'b'], ['a']] := by decide
example : trieStrings (trieAfter [.insert ['a', 'b'], .insert ['a'], .insert ['b'], .delete ['b']]) ['a'] = .ok [some ['a'], some ['a', 'b']] := by
  decide +kernel
example : trace trieStep trieNew [.insert ['a', 'b'], .delete ['a'], .isInserted ['a', 'b'], .delete ['a', 'b'], .isPresent ['a']] =
    [.done, .flag true, .flag true, .flag true, .flag false] := by decide +kernel

end Props
