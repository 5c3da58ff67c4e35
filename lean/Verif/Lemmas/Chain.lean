import Verif.Lemmas.CartDelete

/-!
# Trees whose comparator always says "left"
-/
namespace Props
open Py Model Spec
set_option linter.unusedSectionVars false
variable {κ δ : Type} [DecidableEq κ]

/-- The comparator that always answers yes. -/
abbrev yes : κ → κ → Bool := fun _ _ => true

/-- Every node is the left child of the one before. -/
def leftChain (L : List Nat) (S : Shape := .leaf) : Shape := L.foldr (fun i s => .node s i .leaf) S

/-- The path from the hole below the last node up to the root. -/
def chainUp (L : List Nat) : Around := (L.map (fun i => Frame.inL i .leaf)).reverse

theorem plug_chain : ∀ (L : List Nat) (S : Shape), Around.plug (chainUp L) S = leftChain L S := by
  intro L
  induction L with
  | nil => intro S; rfl
  | cons i L ih =>
    intro S
    simp only [chainUp, List.map_cons, List.reverse_cons, Around.plug_append, leftChain, List.foldr_cons]
    have := ih S
    simp only [chainUp, leftChain] at this
    rw [this]; rfl

theorem ids_chain : ∀ (L : List Nat), (leftChain L).ids = L.reverse := by
  intro L
  induction L with
  | nil => rfl
  | cons i L ih => simp only [leftChain, List.foldr_cons, Shape.ids] at ih ⊢; rw [ih]; simp

theorem root_chain (i : Nat) (L : List Nat) (S : Shape) : (leftChain (i :: L) S).root = some i := rfl

theorem chain_search {up : Bool} {t : BTree κ δ} {k : κ} : ∀ (L : List Nat) (p : Option Nat), Linked up t.at p (leftChain L) →
    (∀ i ∈ L, (keyOf t.at i).isSome) →
    ∃ q, ∀ fuel > L.length + 1, whileLoop fuel bstSearchCond (bstSearchBody yes t k) ⟨(leftChain L).root, p, false⟩ =
      .ok ⟨L.find? (fun i => decide (keyOf t.at i = some k)), q, (L.find? (fun i => decide (keyOf t.at i = some k))).isSome⟩ := by
  intro L
  induction L with
  | nil =>
    intro p _ _
    refine ⟨p, fun fuel hf => ?_⟩
    obtain ⟨f, rfl⟩ : ∃ f, fuel = f + 1 := ⟨fuel - 1, by omega⟩
    simp [whileLoop, bstSearchCond, leftChain, Shape.root]
  | cons i L ih =>
    intro p hl hk
    obtain ⟨⟨n, en, n1, n2, _⟩, hl1, hl2⟩ := hl
    obtain ⟨a, ha⟩ := Option.isSome_iff_exists.mp (hk i (by simp))
    have hna : n.key = some a := by simpa [keyOf, en] using ha
    by_cases hak : a = k
    · subst hak
      refine ⟨p, fun fuel hf => ?_⟩
      obtain ⟨f, rfl⟩ : ∃ f, fuel = f + 2 := ⟨fuel - 2, by omega⟩
      simp [whileLoop, bstSearchCond, bstSearchBody, root_chain, asIdx, getNode_ok en, hna, ha]
    · obtain ⟨q, hq⟩ := ih (some i) hl1 (fun j hj => hk j (by simp [hj]))
      refine ⟨q, fun fuel hf => ?_⟩
      obtain ⟨f, rfl⟩ : ∃ f, fuel = f + 1 := ⟨fuel - 1, by omega⟩
      have h1 := hq f (by simp only [List.length_cons] at hf; omega)
      have hstep : bstSearchBody yes t k ⟨some i, p, false⟩ = .ok ⟨(leftChain L).root, some i, false⟩ := by
        simp [bstSearchBody, asIdx, getNode_ok en, hna, hak, cmpKey, n1]; rfl
      have hf0 : (i :: L).find? (fun i => decide (keyOf t.at i = some k)) = L.find? (fun i => decide (keyOf t.at i = some k)) := by
        rw [List.find?_cons_of_neg]; simp [ha, hak]
      rw [hf0, root_chain]
      simp only [whileLoop, bstSearchCond, Option.isSome_some, Bool.not_false, Bool.and_self, ok_bind, if_true, hstep]
      exact h1

theorem chain_insert {up : Bool} {t : BTree κ δ} {k : κ} {d : Option δ}
    (h1 : t.top ≤ t.arr.length) (h2 : grown t ≤ 4 * (t.num + 1)) (hsz : t.size = t.top) (hlow : ∀ i, (t.at i).isSome → i < t.top) :
    ∀ (L : List Nat) (x : Nat) (p : Option Nat), Linked up t.at p (leftChain (L ++ [x])) → (∀ i ∈ L ++ [x], (keyOf t.at i).isSome) →
    ∃ t', Hung t t' (.inL x .leaf) { key := some k, data := d, parent := some x } ∧
      ∀ fuel > L.length + 1, whileLoop fuel insertCond (insertBody yes k d) ⟨t, (leftChain (L ++ [x])).root, (leftChain (L ++ [x])).root, true⟩ =
        .ok ⟨t', some t.top, some t.top, false⟩ := by
  intro L
  induction L with
  | nil =>
    intro x p hl hk
    obtain ⟨⟨n, en, n1, n2, _⟩, hl1, hl2⟩ := hl
    obtain ⟨a, ha⟩ := Option.isSome_iff_exists.mp (hk x (by simp))
    have hna : n.key = some a := by simpa [keyOf, en] using ha
    have hsome : (t.at x).isSome := by rw [en]; rfl
    have hit : x ≠ t.top := Nat.ne_of_lt (hlow x hsome)
    obtain ⟨t', e', hH⟩ := insertHere_spec (k := k) (d := d) (f := .inL x .leaf) (prev := some x) h1 h2 hsz hsome hit
    refine ⟨t', hH, fun fuel hf => ?_⟩
    obtain ⟨f, rfl⟩ : ∃ f, fuel = f + 2 := ⟨fuel - 2, by simp only [List.length_nil] at hf; omega⟩
    have et' : t'.at x = some { n with left := some t.top } := by
      rw [hH.cells]; simp [hung, mapAt, Frame.idx, Frame.link, hit, en]
    have e'' : insertHere t x (some x) k d (fun i n => { n with left := some i }) = .ok t' := e'
    have n1' : n.left = none := n1
    simp [whileLoop, insertCond, insertBody, root_chain, asIdx, getNode_ok en, hna, cmpKey, n1', e'', getNode_ok et']
  | cons i L ih =>
    intro x p hl hk
    obtain ⟨⟨n, en, n1, n2, _⟩, hl1, hl2⟩ := hl
    obtain ⟨a, ha⟩ := Option.isSome_iff_exists.mp (hk i (by simp))
    have hna : n.key = some a := by simpa [keyOf, en] using ha
    obtain ⟨t', hH, hrun⟩ := ih x (some i) hl1 (fun j hj => hk j (List.mem_cons_of_mem _ hj))
    refine ⟨t', hH, fun fuel hf => ?_⟩
    obtain ⟨f, rfl⟩ : ∃ f, fuel = f + 1 := ⟨fuel - 1, by omega⟩
    have := hrun f (by simp only [List.length_cons] at hf; omega)
    have n1' : n.left = (leftChain (L ++ [x])).root := n1
    have hln : n.left ≠ none := by
      rw [n1']; cases L <;> simp [root_chain]
    have hstep : insertBody yes k d ⟨t, some i, some i, true⟩ = .ok ⟨t, (leftChain (L ++ [x])).root, (leftChain (L ++ [x])).root, true⟩ := by
      rw [← n1']
      simp [insertBody, asIdx, getNode_ok en, hna, cmpKey, hln]
    rw [List.cons_append, root_chain]
    simp only [whileLoop, insertCond, ok_bind, if_true, hstep]
    exact this

end Props
