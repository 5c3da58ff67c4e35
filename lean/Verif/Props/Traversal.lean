import Verif.Model.TreeTraversal
import Verif.Lemmas.BstInsert

/-!
# C74: traversals of binary trees

`HoldsTree t i T`: starting at position `i`, the links of the array spell out the finite binary tree `T` of positions, all
distinct. The textbook orders of `T` are `Shape.pre`, `Shape.ids` (in-order), `Shape.post` and `Shape.levels`.
-/
namespace Props
open Py Model Spec
set_option linter.unusedSectionVars false
variable {κ δ : Type}

/-- Pre-order. -/
def Shape.pre : Shape → List Nat
  | .leaf => []
  | .node l i r => i :: (l.pre ++ r.pre)

/-- Post-order. -/
def Shape.post : Shape → List Nat
  | .leaf => []
  | .node l i r => l.post ++ r.post ++ [i]

/-- The positions at depth `n`, from left to right. -/
def Shape.level : Shape → Nat → List Nat
  | .leaf, _ => []
  | .node _ i _, 0 => [i]
  | .node l _ r, n + 1 => l.level n ++ r.level n

/-- Level by level, from the root down. -/
def Shape.levels (T : Shape) : List Nat := (List.range T.depth).flatMap T.level

/-- The array holds the tree `T` at position `i`. -/
structure HoldsTree (t : BTree κ δ) (i : Nat) (T : Shape) : Prop where
  root : T.root = some i
  linked : Linked false t.at none T
  nodup : T.ids.Nodup

/-- The nodes at the given positions, in that order. -/
def NodesAt (t : BTree κ δ) (ids : List Nat) (ns : List (BNode κ δ)) : Prop := ids.map t.at = ns.map some

theorem nodesAt_filterMap {t : BTree κ δ} : ∀ {ids : List Nat}, (∀ i ∈ ids, (t.at i).isSome) → NodesAt t ids (ids.filterMap t.at) := by
  intro ids
  induction ids with
  | nil => intro _; rfl
  | cons i ids ih =>
    intro h
    obtain ⟨n, en⟩ := Option.isSome_iff_exists.mp (h i (by simp))
    have := ih (fun j hj => h j (by simp [hj]))
    unfold NodesAt at *
    simp [en, this]

theorem Shape.pre_perm : ∀ T : Shape, T.pre.Perm T.ids := by
  intro T
  induction T with
  | leaf => exact .refl _
  | node l i r ih1 ih2 =>
    simp only [pre, ids]
    exact (List.Perm.cons _ (ih1.append ih2)).trans (List.perm_middle.symm)

theorem Shape.post_perm : ∀ T : Shape, T.post.Perm T.ids := by
  intro T
  induction T with
  | leaf => exact .refl _
  | node l i r ih1 ih2 =>
    simp only [post, ids, List.append_assoc]
    exact ih1.append ((ih2.append_right _).trans (List.perm_append_singleton i r.ids))

theorem while_step {σ : Type} {cond : σ → PyM Bool} {body : σ → PyM σ} {s s' : σ} (fuel : Nat) (h1 : cond s = .ok true)
    (h2 : body s = .ok s') : whileLoop (fuel + 1) cond body s = whileLoop fuel cond body s' := by
  simp [whileLoop, h1, h2]

theorem while_stop {σ : Type} {cond : σ → PyM Bool} {body : σ → PyM σ} {s : σ} (fuel : Nat) (h1 : cond s = .ok false) :
    whileLoop (fuel + 1) cond body s = .ok s := by
  simp [whileLoop, h1]

/-! ## Pre-order -/

theorem pre_steps {t : BTree κ δ} : ∀ {T : Shape} {p : Option Nat}, Linked false t.at p T → ∀ fuel rest visit,
    whileLoop (fuel + T.ids.length) visitCond (preBody t) ⟨pushIf T.root rest, visit⟩ =
      whileLoop fuel visitCond (preBody t) ⟨rest, visit ++ T.pre.filterMap t.at⟩ := by
  intro T
  induction T with
  | leaf => intro p _ fuel rest visit; simp [Shape.root, pushIf, Shape.ids, Shape.pre]
  | node l i r ih1 ih2 =>
    intro p hl fuel rest visit
    obtain ⟨⟨n, en, n1, n2, _⟩, h1, h2⟩ := hl
    have e : fuel + (Shape.node l i r).ids.length = (fuel + r.ids.length + l.ids.length) + 1 := by
      simp only [Shape.ids, List.length_append, List.length_cons]; omega
    rw [e, while_step (s' := ⟨pushIf l.root (pushIf r.root rest), visit ++ [n]⟩) _ (by rfl)
      (by rw [← n1, ← n2]; simp [preBody, pushIf, Shape.root, getNode_ok en]), ih1 h1, ih2 h2]
    simp [Shape.pre, en]

/-! ## In-order -/

theorem in_steps {t : BTree κ δ} : ∀ {T : Shape} {p : Option Nat}, Linked false t.at p T → ∀ fuel stack visit,
    whileLoop (fuel + 2 * T.ids.length) inCond (inBody t) ⟨stack, T.root, visit⟩ =
      whileLoop fuel inCond (inBody t) ⟨stack, none, visit ++ T.ids.filterMap t.at⟩ := by
  intro T
  induction T with
  | leaf => intro p _ fuel stack visit; simp [Shape.root, Shape.ids]
  | node l i r ih1 ih2 =>
    intro p hl fuel stack visit
    obtain ⟨⟨n, en, n1, n2, _⟩, h1, h2⟩ := hl
    have e : fuel + 2 * (Shape.node l i r).ids.length = ((fuel + 2 * r.ids.length) + 1 + 2 * l.ids.length) + 1 := by
      simp only [Shape.ids, List.length_append, List.length_cons]; omega
    rw [e, while_step (s' := ⟨i :: stack, l.root, visit⟩) _ (by simp [inCond, Shape.root])
      (by rw [← n1]; simp [inBody, Shape.root, getNode_ok en]), ih1 h1,
      while_step (s' := ⟨stack, r.root, visit ++ l.ids.filterMap t.at ++ [n]⟩) _ (by simp [inCond])
      (by rw [← n2]; simp [inBody, getNode_ok en]), ih2 h2]
    simp [Shape.ids, en]

/-! ## Post-order -/

/-- The flags `last` with the positions `ids` set. -/
def flagAll (last : List Bool) (ids : List Nat) : List Bool := ids.foldl (fun l i => l.set i true) last

theorem flagAll_append (last : List Bool) (a b : List Nat) : flagAll last (a ++ b) = flagAll (flagAll last a) b := by
  simp [flagAll, List.foldl_append]

theorem flagAll_length : ∀ (ids : List Nat) (last : List Bool), (flagAll last ids).length = last.length := by
  intro ids
  induction ids with
  | nil => intro last; rfl
  | cons i ids ih => intro last; show (flagAll (last.set i true) ids).length = _; rw [ih]; simp

theorem flagAll_get : ∀ (ids : List Nat) (last : List Bool) (j : Nat), j < last.length →
    (flagAll last ids)[j]? = some (decide (j ∈ ids) || (last[j]?).getD false) := by
  intro ids
  induction ids with
  | nil => intro last j hj; simp [flagAll, hj]
  | cons i ids ih =>
    intro last j hj
    show (flagAll (last.set i true) ids)[j]? = _
    rw [ih _ _ (by simpa using hj)]
    by_cases hij : i = j
    · subst hij; simp [hj]
    · have : j ≠ i := fun e => hij e.symm
      simp [hij, this]

/-- The number of iterations spent on a subtree. -/
def postSteps : Shape → Nat
  | .leaf => 0
  | .node l _ r => if l = .leaf ∧ r = .leaf then 1 else postSteps l + postSteps r + 2

theorem postDone_fresh {last : List Bool} {T : Shape} (h : ∀ i ∈ T.ids, last[i]? = some false) :
    postDone last T.root = .ok (decide (T = .leaf)) := by
  cases T with
  | leaf => rfl
  | node l i r => simp [postDone, Shape.root, rd, h i (by simp [Shape.ids])]

theorem postDone_after {last : List Bool} {T : Shape} (h : ∀ i ∈ T.ids, last[i]? = some true) :
    postDone last T.root = .ok true := by
  cases T with
  | leaf => rfl
  | node l i r => simp [postDone, Shape.root, rd, h i (by simp [Shape.ids])]

theorem post_steps {t : BTree κ δ} : ∀ {T : Shape} {p : Option Nat}, Linked false t.at p T → T.ids.Nodup →
    ∀ fuel rest visit last, (∀ i ∈ T.ids, last[i]? = some false) →
    whileLoop (fuel + postSteps T) postCond (postBody t) ⟨pushIf T.root rest, visit, last⟩ =
      whileLoop fuel postCond (postBody t) ⟨rest, visit ++ T.post.filterMap t.at, flagAll last T.post⟩ := by
  intro T
  induction T with
  | leaf => intro p _ _ fuel rest visit last _; simp [Shape.root, pushIf, Shape.post, postSteps, flagAll]
  | node l i r ih1 ih2 =>
    intro p hl nd fuel rest visit last hf
    obtain ⟨⟨n, en, n1, n2, _⟩, h1, h2⟩ := hl
    simp only [Shape.ids] at nd hf
    have ndl : l.ids.Nodup := by grind
    have ndr : r.ids.Nodup := by grind
    have hil : i ∉ l.ids := by grind
    have hir : i ∉ r.ids := by grind
    have hlr : ∀ x ∈ r.ids, x ∉ l.ids := by grind
    have hlf : ∀ x ∈ l.ids, last[x]? = some false := fun x hx => hf x (by simp [hx])
    have hrf : ∀ x ∈ r.ids, last[x]? = some false := fun x hx => hf x (by simp [hx])
    have hif : last[i]? = some false := hf i (by simp)
    have hlen : ∀ x, last[x]? = some false → x < last.length := fun x hx => (List.getElem?_eq_some_iff.mp hx).1
    by_cases hboth : l = .leaf ∧ r = .leaf
    · obtain ⟨rfl, rfl⟩ := hboth
      rw [postSteps, if_pos ⟨rfl, rfl⟩, while_step (s' := ⟨rest, visit ++ [n], last.set i true⟩) _ (by rfl)]
      · simp [Shape.post, en, flagAll]
      · simp [postBody, Shape.root, pushIf, getNode_ok en, n1, n2, postDone, wr, hlen i hif]
    · have hS : postSteps (.node l i r) = postSteps l + postSteps r + 2 := by rw [postSteps, if_neg hboth]
      have e : fuel + postSteps (.node l i r) = ((fuel + 1) + postSteps r + postSteps l) + 1 := by rw [hS]; omega
      have hm1 : ∀ x, x ∈ l.post ↔ x ∈ l.ids := fun x => (Shape.post_perm l).mem_iff
      have hm2 : ∀ x, x ∈ r.post ↔ x ∈ r.ids := fun x => (Shape.post_perm r).mem_iff
      rw [e, while_step (s' := ⟨pushIf l.root (pushIf r.root (i :: rest)), visit, last⟩) _ (by rfl), ih1 h1 ndl _ _ _ _ hlf, ih2 h2 ndr]
      · rw [while_step (s' := ⟨rest, visit ++ l.post.filterMap t.at ++ r.post.filterMap t.at ++ [n],
            (flagAll (flagAll last l.post) r.post).set i true⟩) _ (by rfl)]
        · simp [Shape.post, en, flagAll, List.foldl_append]
        · have hd1 : postDone (flagAll (flagAll last l.post) r.post) n.left = .ok true := by
            rw [n1]; apply postDone_after
            intro x hx
            have hx' := hlen x (hlf x hx)
            rw [flagAll_get _ _ _ (by rw [flagAll_length]; exact hx'), flagAll_get _ _ _ hx']
            simp [hm1, hx]
          have hd2 : postDone (flagAll (flagAll last l.post) r.post) n.right = .ok true := by
            rw [n2]; apply postDone_after
            intro x hx
            have hx' := hlen x (hrf x hx)
            rw [flagAll_get _ _ _ (by rw [flagAll_length]; exact hx')]
            simp [hm2, hx]
          simp [postBody, getNode_ok en, hd1, hd2, wr, flagAll_length, hlen i hif]
      · intro x hx
        have hx' := hlen x (hrf x hx)
        rw [flagAll_get _ _ _ hx', hrf x hx]
        simp [hm1, hlr x hx]
      · have hd1 : postDone last n.left = .ok (decide (l = .leaf)) := by rw [n1]; exact postDone_fresh hlf
        have hd2 : postDone last n.right = .ok (decide (r = .leaf)) := by rw [n2]; exact postDone_fresh hrf
        simp only [postBody, Shape.root, pushIf, getNode_ok en, ok_bind, hd1, hd2]
        by_cases hl' : l = .leaf
        · subst hl'
          have hr' : r ≠ .leaf := fun e => hboth ⟨rfl, e⟩
          simp [hr', n2]
          rfl
        · by_cases hr' : r = .leaf
          · subst hr'; simp [hl', n1]; rfl
          · simp [hl', hr', n1, n2]; rfl

/-! ## Level order -/

/-- Roots of a list of trees. -/
def rootsOf (F : List Shape) : List Nat := F.filterMap Shape.root

/-- What remains to be visited when `A` are the trees still to be visited on the current level and `B` those already queued
on the next one, down to `D` levels below. -/
def levelRest (D : Nat) (A B : List Shape) : List Nat :=
  A.flatMap (·.level 0) ++ (List.range D).flatMap (fun n => B.flatMap (·.level n) ++ A.flatMap (·.level (n + 1)))

theorem level_zero (T : Shape) : T.level 0 = T.root.toList := by cases T <;> rfl

theorem roots_level (F : List Shape) : F.flatMap (·.level 0) = rootsOf F := by
  induction F with
  | nil => rfl
  | cons T F ih =>
    rw [List.flatMap_cons, ih, level_zero]
    cases T <;> rfl

theorem level_above : ∀ (T : Shape) (n : Nat), T.depth ≤ n → T.level n = [] := by
  intro T
  induction T with
  | leaf => intro n _; rfl
  | node l i r ih1 ih2 =>
    intro n hn
    simp only [Shape.depth] at hn
    obtain ⟨n, rfl⟩ : ∃ m, n = m + 1 := ⟨n - 1, by omega⟩
    simp [Shape.level, ih1 n (by omega), ih2 n (by omega)]

/-- The number of nodes of a list of trees. -/
def forestSize (F : List Shape) : Nat := (F.map (fun T => T.ids.length)).sum


/-- The children of a tree, as a list. -/
def Shape.kids : Shape → List Shape
  | .leaf => []
  | .node l _ r => [l, r]

theorem rootsOf_append (A B : List Shape) : rootsOf (A ++ B) = rootsOf A ++ rootsOf B := by simp [rootsOf]

theorem bfs_steps {t : BTree κ δ} : ∀ (N D : Nat) (A B : List Shape), 4 * forestSize (A ++ B) + A.length + (if B = [] then 0 else 1) + B.length ≤ N →
    (∀ T ∈ A ++ B, ∃ p, Linked false t.at p T) → (∀ T ∈ A, T.depth ≤ D + 1) → (∀ T ∈ B, T.depth ≤ D) →
    ∀ fuel visit, fuel > forestSize (A ++ B) →
    whileLoop fuel visitCond (bfsTreeBody t) ⟨rootsOf (A ++ B), visit⟩ = .ok ⟨[], visit ++ (levelRest D A B).filterMap t.at⟩ := by
  intro N
  induction N with
  | zero =>
    intro D A B hN _ _ _ fuel visit hfu
    have hA : A = [] := List.length_eq_zero_iff.mp (by omega)
    have hB : B = [] := List.length_eq_zero_iff.mp (by omega)
    subst hA hB
    obtain ⟨f, rfl⟩ : ∃ f, fuel = f + 1 := ⟨fuel - 1, by omega⟩
    rw [while_stop _ (by rfl)]
    simp [levelRest, rootsOf]
  | succ N ih =>
    intro D A B hN hlk hA hB fuel visit hfu
    cases A with
    | nil =>
      by_cases hB0 : B = []
      · subst hB0
        obtain ⟨f, rfl⟩ : ∃ f, fuel = f + 1 := ⟨fuel - 1, by omega⟩
        rw [while_stop _ (by rfl)]
        simp [levelRest, rootsOf]
      · cases D with
        | zero =>
          have hleaf : ∀ T ∈ B, T = .leaf := by
            intro T hT
            have := hB T hT
            cases T with
            | leaf => rfl
            | node l i r => simp [Shape.depth] at this
          have hr : rootsOf ([] ++ B) = [] := by
            simp only [rootsOf, List.nil_append, List.filterMap_eq_nil_iff]
            intro T hT; rw [hleaf T hT]; rfl
          obtain ⟨f, rfl⟩ : ∃ f, fuel = f + 1 := ⟨fuel - 1, by omega⟩
          rw [hr, while_stop _ (by rfl)]
          simp [levelRest]
        | succ D =>
          have := ih D B [] (by
              simp only [List.append_nil, List.nil_append, List.length_nil, if_neg hB0, if_true] at hN ⊢; omega)
            (by simpa using hlk) (fun T hT => hB T hT) (by simp) fuel visit (by simpa using hfu)
          simp only [List.append_nil, List.nil_append] at this ⊢
          rw [this]
          congr 3
          simp [levelRest, List.range_succ_eq_map, List.flatMap_map]
    | cons T A =>
      cases T with
      | leaf =>
        have h1 := ih D A B (by
            simp only [forestSize, List.cons_append, List.map_cons, List.sum_cons, List.length_cons, Shape.ids, List.length_nil] at hN ⊢; omega)
          (fun T hT => hlk T (by simp only [List.cons_append, List.mem_cons]; exact .inr hT))
          (fun T hT => hA T (by simp [hT])) hB fuel visit (by simpa [forestSize, Shape.ids] using hfu)
        have e1 : rootsOf (.leaf :: A ++ B) = rootsOf (A ++ B) := rfl
        have e2 : levelRest D (.leaf :: A) B = levelRest D A B := by simp [levelRest, Shape.level]
        rw [e1, e2, h1]
      | node l i r =>
        obtain ⟨p, ⟨n, en, n1, n2, _⟩, hl1, hl2⟩ := hlk (.node l i r) (by simp)
        have hd := hA (.node l i r) (by simp)
        simp only [Shape.depth] at hd
        obtain ⟨f, rfl⟩ : ∃ f, fuel = f + 1 := ⟨fuel - 1, by omega⟩
        have hfs : forestSize (A ++ (B ++ [l, r])) + 1 = forestSize (.node l i r :: A ++ B) := by
          simp only [forestSize, List.cons_append, List.map_cons, List.sum_cons, List.map_append, List.sum_append, Shape.ids, List.length_append,
            List.length_cons, List.map_nil, List.sum_nil]; omega
        have h1 := ih D A (B ++ [l, r]) (by
            have hne : B ++ [l, r] ≠ [] := by simp
            rw [if_neg hne]
            rw [← hfs] at hN
            simp only [List.length_cons, List.length_append, List.length_nil] at hN ⊢
            split at hN <;> omega)
          (by
            intro T hT
            simp only [List.mem_append, List.mem_cons, List.not_mem_nil, or_false] at hT
            rcases hT with hT | hT | rfl | rfl
            · exact hlk T (by simp [hT])
            · exact hlk T (by simp [hT])
            · exact ⟨_, hl1⟩
            · exact ⟨_, hl2⟩)
          (fun T hT => hA T (by simp [hT]))
          (by
            intro T hT
            simp only [List.mem_append, List.mem_cons, List.not_mem_nil, or_false] at hT
            rcases hT with hT | rfl | rfl
            · exact hB T hT
            · omega
            · omega) f (visit ++ [n]) (by omega)
        rw [while_step (s' := ⟨rootsOf (A ++ (B ++ [l, r])), visit ++ [n]⟩) _ (by rfl), h1]
        · congr 2
          have : levelRest D (.node l i r :: A) B = i :: levelRest D A (B ++ [l, r]) := by
            simp [levelRest, Shape.level]
          rw [this]; simp [en]
        · have e3 : rootsOf (.node l i r :: A ++ B) = i :: rootsOf (A ++ B) := by simp [rootsOf, Shape.root]
          rw [e3]
          simp only [bfsTreeBody, getNode_ok en, ok_bind, n1, n2]
          congr 2
          rw [← List.append_assoc, rootsOf_append (A ++ B)]
          congr 1
          cases l <;> cases r <;> rfl


/-! ## The theorems -/

/-- `depth_first_search(order='pre_order')` visits every node once, in pre-order. -/
theorem C74_pre_order {t : BTree κ δ} {i : Nat} {T : Shape} (h : HoldsTree t i T) :
    ∃ ns, NodesAt t T.pre ns ∧ EndsWith (fun n => treeDfs n t .pre (some i)) (.ok ns) := by
  refine ⟨_, nodesAt_filterMap (fun j hj => linked_isSome h.linked j ((Shape.pre_perm T).mem_iff.mp hj)), T.ids.length + 1, ?_⟩
  intro n hn
  obtain ⟨f, rfl⟩ : ∃ f, n = f + 1 + T.ids.length := ⟨n - T.ids.length - 1, by omega⟩
  have := pre_steps h.linked (f + 1) [] []
  rw [h.root, while_stop _ (by rfl)] at this
  have e : ({ todo := pushIf (some i) [], visit := [] } : VisitSt κ δ) = ⟨[i], []⟩ := rfl
  rw [e] at this
  simp [treeDfs, preOrder, this]

/-- `depth_first_search()` (in-order, the default) visits every node once, from left to right. -/
theorem C74_in_order {t : BTree κ δ} {i : Nat} {T : Shape} (h : HoldsTree t i T) :
    ∃ ns, NodesAt t T.ids ns ∧ EndsWith (fun n => treeDfs n t .ino (some i)) (.ok ns) := by
  refine ⟨_, nodesAt_filterMap (fun j hj => linked_isSome h.linked j hj), 2 * T.ids.length + 1, ?_⟩
  intro n hn
  obtain ⟨f, rfl⟩ : ∃ f, n = f + 1 + 2 * T.ids.length := ⟨n - 2 * T.ids.length - 1, by omega⟩
  have := in_steps h.linked (f + 1) [] []
  rw [h.root, while_stop _ (by rfl)] at this
  simp [treeDfs, inOrder, this]

/-- `depth_first_search(order='out_order')` visits every node once, from right to left. -/
theorem C74_out_order {t : BTree κ δ} {i : Nat} {T : Shape} (h : HoldsTree t i T) :
    ∃ ns, NodesAt t T.ids.reverse ns ∧ EndsWith (fun n => treeDfs n t .out (some i)) (.ok ns) := by
  obtain ⟨ns, h1, n0, h2⟩ := C74_in_order h
  refine ⟨ns.reverse, ?_, n0, ?_⟩
  · unfold NodesAt at *; rw [List.map_reverse, h1, List.map_reverse]
  · intro n hn
    have := h2 n hn
    simp only [treeDfs, Option.getD_some] at this ⊢
    simp [outOrder, this]

/-- `depth_first_search(order='post_order')` visits every node once, in post-order. -/
theorem C74_post_order {t : BTree κ δ} {i : Nat} {T : Shape} (h : HoldsTree t i T) (hs : ∀ j ∈ T.ids, j < t.size) :
    ∃ ns, NodesAt t T.post ns ∧ EndsWith (fun n => treeDfs n t .post (some i)) (.ok ns) := by
  refine ⟨_, nodesAt_filterMap (fun j hj => linked_isSome h.linked j ((Shape.post_perm T).mem_iff.mp hj)), postSteps T + 1, ?_⟩
  intro n hn
  obtain ⟨f, rfl⟩ : ∃ f, n = f + 1 + postSteps T := ⟨n - postSteps T - 1, by omega⟩
  have := post_steps h.linked h.nodup (f + 1) [] [] (List.replicate t.size false) (by
    intro j hj; simp [hs j hj])
  rw [h.root, while_stop _ (by rfl)] at this
  have e : ({ stack := pushIf (some i) [], visit := [], last := List.replicate t.size false } : PostSt κ δ) =
    ⟨[i], [], List.replicate t.size false⟩ := rfl
  rw [e] at this
  simp [treeDfs, postOrder, this]

/-- `breadth_first_search()` visits every node once, level by level and from left to right within a level. -/
theorem C74_level_order {t : BTree κ δ} {i : Nat} {T : Shape} (h : HoldsTree t i T) :
    ∃ ns, NodesAt t T.levels ns ∧ EndsWith (fun n => treeBfs n t (some i)) (.ok ns) := by
  have hmem : ∀ (S : Shape) (n j : Nat), j ∈ S.level n → j ∈ S.ids := by
    intro S
    induction S with
    | leaf => intro n j hj; simp [Shape.level] at hj
    | node l x r ih1 ih2 =>
      intro n j hj
      cases n with
      | zero => simp only [Shape.level, List.mem_singleton] at hj; subst hj; simp [Shape.ids]
      | succ n =>
        simp only [Shape.level, List.mem_append] at hj
        rcases hj with hj | hj
        · simp [Shape.ids, ih1 n j hj]
        · simp [Shape.ids, ih2 n j hj]
  refine ⟨_, nodesAt_filterMap (fun j hj => ?_), T.ids.length + 1, ?_⟩
  · simp only [Shape.levels, List.mem_flatMap] at hj
    obtain ⟨n, _, hj⟩ := hj
    exact linked_isSome h.linked j (hmem T n j hj)
  · intro n hn
    have hpos : T.depth = (T.depth - 1) + 1 := by
      cases T with
      | leaf => have := h.root; cases this
      | node l x r => simp [Shape.depth]
    have := bfs_steps (t := t) _ (T.depth - 1) [T] [] (Nat.le_refl _) (by simpa using ⟨none, h.linked⟩) (by simp; omega) (by simp) n []
      (by simp [forestSize]; omega)
    have e : rootsOf ([T] ++ []) = [i] := by simp [rootsOf, h.root]
    rw [e] at this
    have e2 : levelRest (T.depth - 1) [T] [] = T.levels := by
      rw [Shape.levels, hpos, List.range_succ_eq_map]
      simp [levelRest, List.flatMap_map]
    rw [e2] at this
    simp [treeBfs, this]

/-- Each textbook order lists every node of the tree exactly once. -/
theorem C74_every_node_once {t : BTree κ δ} {i : Nat} {T : Shape} (h : HoldsTree t i T) :
    T.pre.Perm T.ids ∧ T.post.Perm T.ids ∧ T.levels.Perm T.ids ∧ T.ids.Nodup := by
  refine ⟨Shape.pre_perm T, Shape.post_perm T, ?_, h.nodup⟩
  have key : ∀ (S : Shape) (D : Nat), S.depth ≤ D → ((List.range D).flatMap S.level).Perm S.ids := by
    intro S
    induction S with
    | leaf =>
      intro D _
      have : (List.range D).flatMap Shape.leaf.level = [] := by
        rw [List.flatMap_eq_nil_iff]; intro n _; rfl
      rw [this]; exact .refl _
    | node l x r ih1 ih2 =>
      intro D hD
      simp only [Shape.depth] at hD
      obtain ⟨D, rfl⟩ : ∃ d, D = d + 1 := ⟨D - 1, by omega⟩
      rw [List.range_succ_eq_map]
      simp only [List.flatMap_cons, Shape.level, List.flatMap_map, Shape.ids]
      have hsplit : ∀ L : List Nat, (L.flatMap (fun n => l.level n ++ r.level n)).Perm (L.flatMap l.level ++ L.flatMap r.level) := by
        intro L
        induction L with
        | nil => exact .refl _
        | cons a L ih =>
          simp only [List.flatMap_cons, List.append_assoc]
          refine List.Perm.append_left _ ?_
          refine (List.Perm.append_left _ ih).trans ?_
          rw [← List.append_assoc, ← List.append_assoc]
          exact List.Perm.append_right _ List.perm_append_comm
      refine (List.Perm.cons x ((hsplit _).trans ((ih1 D (by omega)).append (ih2 D (by omega))))).trans ?_
      exact List.perm_middle.symm
  exact key T T.depth (Nat.le_refl _)


/-- A concrete tree: root 10 at position 2, with 5 at position 0 (whose right child 7 is at position 4) and 12 at position 1;
position 3 has been freed. -/
def exTree : BTree Nat Nat where
  arr := [some { key := some 5, data := none, right := some 4, parent := some 2 }, some { key := some 12, data := none, parent := some 2 },
    some { key := some 10, data := none, left := some 0, right := some 1 }, none, some { key := some 7, data := some 1, parent := some 0 }]
  num := 4
  top := 5
  rootIdx := 2
  size := 5
  orderStat := false

/-- Its shape. -/
def exShape : Shape := .node (.node .leaf 0 (.node .leaf 4 .leaf)) 2 (.node .leaf 1 .leaf)

theorem exHolds : HoldsTree exTree 2 exShape :=
  ⟨rfl, ⟨⟨_, rfl, rfl, rfl, nofun⟩, ⟨⟨_, rfl, rfl, rfl, nofun⟩, trivial, ⟨_, rfl, rfl, rfl, nofun⟩, trivial, trivial⟩,
    ⟨_, rfl, rfl, rfl, nofun⟩, trivial, trivial⟩, by decide⟩

example : (treeDfs 20 exTree .pre none).map (·.map (·.key)) = .ok [some 10, some 5, some 7, some 12] := by decide +kernel
example : (treeDfs 20 exTree .ino none).map (·.map (·.key)) = .ok [some 5, some 7, some 10, some 12] := by decide +kernel
example : (treeDfs 20 exTree .post none).map (·.map (·.key)) = .ok [some 7, some 5, some 12, some 10] := by decide +kernel
example : (treeBfs 20 exTree none).map (·.map (·.key)) = .ok [some 10, some 5, some 12, some 7] := by decide +kernel
example : ∃ ns, NodesAt exTree [4, 0, 1, 2] ns ∧ EndsWith (fun n => treeDfs n exTree .post (some 2)) (.ok ns) :=
  C74_post_order exHolds (by decide)

end Props
