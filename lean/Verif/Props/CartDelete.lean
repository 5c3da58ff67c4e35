import Verif.Lemmas.CartDelete
import Verif.Props.RedBlackDelete

/-!
# C86: Cartesian trees and treaps under insertions and deletions
-/
namespace Props
open Py Model Spec
set_option linter.unusedSectionVars false
variable {κ δ : Type} [DecidableEq κ]

/-! ## Specification -/

/-- A call: `insert(key, priority, data)` (for a treap the priority is the number drawn) or `delete(key)`. -/
inductive CartOp (κ δ : Type) where
  | insert (k : κ) (prio : Int) (d : Option δ)
  | delete (k : κ)

/-- The call without the priority; `bstContents` and `bstReturns` say what it does to the entries and what it returns. -/
def CartOp.plain : CartOp κ δ → BstOp κ δ
  | .insert k _ d => .insert k d
  | .delete k => .delete k

/-- The priority a key was given last. -/
def lastPrio : List (CartOp κ δ) → κ → Option Int
  | [], _ => none
  | .insert k' p _ :: ops, k => (lastPrio ops k).or (if k' = k then some p else none)
  | .delete _ :: ops, k => lastPrio ops k

/-- One call on a Cartesian tree. -/
def cartStep (lt : κ → κ → Bool) (fuel : Nat) (t : BTree κ δ) : CartOp κ δ → PyM (BTree κ δ × Bool)
  | .insert k p d => do
    let t ← cartInsert lt fuel t k p d
    .ok (t, false)
  | .delete k => cartDelete lt fuel t k

/-- The calls of a history, with the values they return. -/
def cartRun (lt : κ → κ → Bool) (fuel : Nat) : BTree κ δ → List (CartOp κ δ) → PyM (BTree κ δ × List Bool)
  | t, [] => .ok (t, [])
  | t, op :: ops => do
    let r ← cartStep lt fuel t op
    let q ← cartRun lt fuel r.1 ops
    .ok (q.1, r.2 :: q.2)

/-- The tree is heap-ordered by priorities, and every node has the priority its key was given. -/
def HeapShape (t : BTree κ δ) (pr : κ → Option Int) : Prop :=
  ∃ T, HoldsTree t t.rootIdx T ∧ (∀ j ∈ T.ids, ∃ n k p, t.at j = some n ∧ n.key = some k ∧ n.prio = some p ∧ pr k = some p) ∧ MinHeap t.at T

/-- The tree serves the entries `D` and is a heap for the priorities `pr`. -/
def ServesCart (lt : κ → κ → Bool) (t : BTree κ δ) (D : List (κ × Option δ)) (pr : κ → Option Int) : Prop :=
  ServesEntries lt t D ∧ (D ≠ [] → HeapShape t pr)

/-- **C86**, in full: any history, starting with the empty tree. -/
def C86_full (lt : κ → κ → Bool) (δ : Type) : Prop :=
  ∀ (os : Bool) (ops : List (CartOp κ δ)), ∃ t, EndsWith (fun n => cartRun lt n (btEmpty os) ops) (.ok (t, bstReturns [] (ops.map CartOp.plain))) ∧
    ServesCart lt t (bstContents [] (ops.map CartOp.plain)) (lastPrio ops)

/-! ## The state -/

/-- The priorities after one more call. -/
def prioStep (pr : κ → Option Int) : CartOp κ δ → κ → Option Int
  | .insert k' p _, k => if k = k' then some p else pr k
  | .delete _, k => pr k

theorem lastPrio_foldl : ∀ (ops : List (CartOp κ δ)) (pr : κ → Option Int), ops.foldl prioStep pr = fun k => (lastPrio ops k).or (pr k) := by
  intro ops
  induction ops with
  | nil => intro pr; rfl
  | cons op ops ih =>
    intro pr
    rw [List.foldl_cons, ih]
    funext k
    cases op with
    | insert k' p d =>
      simp only [lastPrio, prioStep, Option.or_assoc]
      congr 1
      by_cases h : k = k'
      · simp [h]
      · rw [if_neg h, if_neg (Ne.symm h), Option.none_or]
    | delete k' => rfl

/-- The Cartesian tree has the entries `D` and the priorities `pr`. -/
def CartHas (lt : κ → κ → Bool) (t : BTree κ δ) (D : List (κ × Option δ)) (pr : κ → Option Int) : Prop :=
  ∃ E, E.Perm D ∧ (E = [] ∧ AvlCleared t ∨ ∃ T, CartTree t T E (fun k => (pr k).map some) ∧ E.Pairwise fun a b => lt a.1 b.1 = true)

theorem CartHas.empty (lt : κ → κ → Bool) (os : Bool) (pr : κ → Option Int) : CartHas lt (btEmpty os : BTree κ δ) [] pr := ⟨[], .refl _, .inl ⟨rfl, AvlCleared.empty os⟩⟩

theorem CartHas.nodup_keys {lt : κ → κ → Bool} (ht : StrictTotal (ltRel lt)) {t : BTree κ δ} {D : List (κ × Option δ)} {pr : κ → Option Int} (h : CartHas lt t D pr) :
    (D.map (·.1)).Nodup := by
  obtain ⟨E, hp, ⟨rfl, _⟩ | ⟨T, hT, hs⟩⟩ := h
  · rw [List.nil_perm.mp hp]; simp
  · refine (hp.map (·.1)).nodup_iff.mp ?_
    rw [List.Nodup, List.pairwise_map]
    refine hs.imp ?_
    intro a b hab he
    rw [he] at hab
    exact ht.irrefl _ hab

theorem CartHas.serves {lt : κ → κ → Bool} (ht : StrictTotal (ltRel lt)) {t : BTree κ δ} {D : List (κ × Option δ)} {pr : κ → Option Int} (h : CartHas lt t D pr) :
    ServesCart lt t D pr := by
  have hn := h.nodup_keys ht
  obtain ⟨E, hp, ⟨rfl, hc⟩ | ⟨T, hT, hs⟩⟩ := h
  · have := List.nil_perm.mp hp
    subst this
    obtain ⟨r, er, hk, _⟩ := hc.root
    refine ⟨⟨fun k => ⟨none, ⟨0, fun n _ => ?_⟩, rfl⟩, fun h => absurd rfl h, bounds_cleared er hk⟩, fun h => absurd rfl h⟩
    simp only [bstSearch, bstSearchP, getNode_ok er, hk, ok_bind]; rfl
  · have st := hT.stored
    have hcar : Carries t T (dataOf D) := st.carries fun k d => by rw [dataOf_iff hn, hp.mem_iff]
    have hsrt := st.srt hs
    refine ⟨⟨search_map ht st.tree hsrt hcar, fun _ => inorder_map st.tree.root st.tree.linked.weaken st.tree.nodup hsrt hcar, bounds_entries ht hn st.tree hsrt hcar⟩,
      fun _ => ⟨T, ⟨st.tree.root, st.tree.linked.weaken, st.tree.nodup⟩, fun j hj => ?_, hT.heap⟩⟩
    obtain ⟨n, k, p, en, h1, h2, h3⟩ := hT.prio j hj
    refine ⟨n, k, p, en, h1, h2, ?_⟩
    dsimp only at h3
    cases e : pr k with
    | none => rw [e] at h3; cases h3
    | some q => rw [e] at h3; cases h3; rfl

/-! ## One call -/

/-- The array copes with the call: `insert` brings a new key, finds the last position filled and, if the tree is empty, a root that is marked
as such. Deletions are not restricted: the array may contract. -/
def CopesCart (t : BTree κ δ) (D : List (κ × Option δ)) : CartOp κ δ → Prop
  | .insert k _ _ => ¬ Has D k ∧ (D = [] → RootFlag t) ∧ (D = [] ∨ t.size = t.top ∧ grown t ≤ 4 * (t.num + 1))
  | .delete _ => True

/-- What a call does to the array. -/
def CartCounts (t t' : BTree κ δ) (D : List (κ × Option δ)) : CartOp κ δ → Prop
  | .insert k _ d => Counts t t' D (.insert k d)
  | .delete _ => Shrunk t t'

/-- One call on a Cartesian tree whose array copes with it. -/
theorem cartHas_step {lt : κ → κ → Bool} (ht : StrictTotal (ltRel lt)) {t : BTree κ δ} {D : List (κ × Option δ)} {pr : κ → Option Int} (h : CartHas lt t D pr) (op : CartOp κ δ)
    (hc : CopesCart t D op) : ∃ t', CartHas lt t' (bstSpec D op.plain) (prioStep pr op) ∧ CartCounts t t' D op ∧
      ∃ n0, ∀ fuel, n0 ≤ fuel → cartStep lt fuel t op = .ok (t', bstReturn D op.plain) := by
  obtain ⟨E, hp, hst⟩ := h
  have hTne : ∀ {T : Shape} {pm : κ → Option (Option Int)}, CartTree t T E pm → D ≠ [] := by
    rintro T pm hT rfl
    have := hp.length_eq
    have h2 := hT.stored.ent.length
    have h3 := Shape.root_mem hT.stored.tree.root
    have h4 := List.length_pos_of_mem h3
    simp at this; rw [this] at h2; simp at h2; omega
  have hfun : ∀ (k : κ) (p : Int) (d : Option δ), (fun k' => (prioStep pr (.insert k p d) k').map some) = fun k' => if k' = k then some (some p) else (pr k').map some := by
    intro k p d
    funext k'
    simp only [prioStep]
    split <;> rfl
  cases op with
  | insert k p d =>
    obtain ⟨hk, hfl, hc⟩ := hc
    rcases hst with ⟨rfl, hcl⟩ | ⟨T, hT, hs⟩
    · have := List.nil_perm.mp hp
      subst this
      obtain ⟨t', T', h1, h2, n0, h3⟩ := cartInsert_cleared (lt := lt) ht hcl (hfl rfl) k p d (fun k => (pr k).map some)
      refine ⟨t', ⟨[(k, d)], by simp [CartOp.plain, bstSpec], .inr ⟨T', ?_, by simp⟩⟩, ⟨fun _ => h2, fun h => absurd (.inl rfl) h⟩, n0,
        fun fuel hf => by simp only [cartStep, h3 fuel hf, ok_bind]; rfl⟩
      rw [hfun]; exact h1
    · have hne := hTne hT
      obtain ⟨hsz, hg⟩ := hc.resolve_left hne
      have hk' : ∀ d, (k, d) ∉ E := fun d hd => hk ((has_perm hp k).mpr ⟨d, hd⟩)
      obtain ⟨t', T', E', h1, hs', h2, o', c1, c2, c3, c4, n0, h4⟩ := cartInsert_absent ht hT hs hk' p d hsz hg
      refine ⟨t', ⟨E', ?_, .inr ⟨T', by rw [hfun]; exact h1, hs'⟩⟩, ?_, n0, fun fuel hf => by simp only [cartStep, h4 fuel hf, ok_bind]; rfl⟩
      · simp only [CartOp.plain, bstSpec, filter_absent hk]
        exact h2.trans (hp.cons _)
      · exact ⟨fun h => absurd (h.resolve_left hne) hk, fun _ => ⟨c1, c2, c3, c4⟩⟩
  | delete k =>
    by_cases hk : Has D k
    · have hret : bstReturn D (CartOp.plain (.delete k : CartOp κ δ)) = true := has_iff.mpr hk
      rw [hret]
      obtain ⟨d0, hd0⟩ := (has_perm hp k).mp hk
      rcases hst with ⟨rfl, hcl⟩ | ⟨T, hT, hs⟩
      · cases hd0
      obtain ⟨t', hor, n0, hrun⟩ := cartDelete_present ht hT hs hd0
      rcases hor with ⟨h1, hcl, hs'⟩ | ⟨_, T', h1, h2, _, o'⟩
      · have he : (E.filter fun e => e.1 ≠ k) = [] := by
          obtain ⟨e, rfl⟩ := List.length_eq_one_iff.mp h1
          have : e = (k, d0) := (List.mem_singleton.mp hd0).symm
          subst this; simp
        exact ⟨t', ⟨_, hp.filter _, .inl ⟨he, hcl⟩⟩, ⟨hs'.size, Nat.le_of_eq hs'.top, .inl hs'.len⟩, n0, hrun⟩
      · exact ⟨t', ⟨_, hp.filter _, .inr ⟨T', h1, hs.sublist (List.filter_sublist)⟩⟩, h2, n0, hrun⟩
    · have hret : bstReturn D (CartOp.plain (.delete k : CartOp κ δ)) = false := by
        cases e : bstReturn D (CartOp.plain (.delete k : CartOp κ δ)) with
        | false => rfl
        | true => exact absurd (has_iff.mp e) hk
      rw [hret]
      have hsp : bstSpec D (CartOp.plain (.delete k : CartOp κ δ)) = D := filter_absent hk
      rw [hsp]
      rcases hst with ⟨rfl, hcl⟩ | ⟨T, hT, hs⟩
      · refine ⟨t, ⟨[], hp, .inl ⟨rfl, hcl⟩⟩, ⟨rfl, Nat.le_refl _, .inl rfl⟩, 0, fun fuel _ => ?_⟩
        obtain ⟨r, er, hk, _⟩ := hcl.root
        simp only [cartStep, cartDelete, bstSearch, bstSearchP, getNode_ok er, hk, ok_bind]; rfl
      · have hk' : ∀ d, (k, d) ∉ E := fun d hd => hk ((has_perm hp k).mpr ⟨d, hd⟩)
        obtain ⟨n0, hrun⟩ := cartDelete_absent ht hT.stored hs hk'
        exact ⟨t, ⟨E, hp, .inr ⟨T, hT, hs⟩⟩, ⟨rfl, Nat.le_refl _, .inl rfl⟩, n0, hrun⟩

/-! ## Histories -/

/-- The array copes with every call of the history. -/
def CopesCartAll (lt : κ → κ → Bool) (fuel : Nat) : BTree κ δ → List (κ × Option δ) → List (CartOp κ δ) → Prop
  | _, _, [] => True
  | t, D, op :: ops => CopesCart t D op ∧ ∀ r, cartStep lt fuel t op = .ok r → CopesCartAll lt fuel r.1 (bstSpec D op.plain) ops

theorem cartHas_run {lt : κ → κ → Bool} (ht : StrictTotal (ltRel lt)) : ∀ (ops : List (CartOp κ δ)) (t : BTree κ δ) (D : List (κ × Option δ)) (pr : κ → Option Int),
    CartHas lt t D pr → (∃ n0, ∀ fuel, n0 ≤ fuel → CopesCartAll lt fuel t D ops) →
    ∃ t', CartHas lt t' (bstContents D (ops.map CartOp.plain)) (ops.foldl prioStep pr) ∧
      EndsWith (fun n => cartRun lt n t ops) (.ok (t', bstReturns D (ops.map CartOp.plain))) := by
  intro ops
  induction ops with
  | nil => intro t D pr h _; exact ⟨t, h, 0, fun _ _ => rfl⟩
  | cons op ops ih =>
    rintro t D pr h ⟨n0, hc⟩
    obtain ⟨t1, h1, _, n1, r1⟩ := cartHas_step ht h op (hc n0 (Nat.le_refl _)).1
    obtain ⟨t2, h2, n2, r2⟩ := ih t1 _ _ h1 ⟨max n0 n1, fun fuel hf => (hc fuel (by omega)).2 _ (r1 fuel (by omega))⟩
    refine ⟨t2, h2, max n1 n2, fun fuel hf => ?_⟩
    have e1 := r1 fuel (by omega)
    have e2 := r2 fuel (by omega)
    simp only at e2
    simp only [cartRun, e1, e2, ok_bind, List.map_cons, bstReturns]

/-- **C86** for the histories the array copes with: only absent keys are inserted, a new key only while the last position is filled,
and an emptied tree is filled again only if its root is still marked. Missing: the other histories, for which the claim is
false (`C86_full_false`, `C86_unmarked_root`, `C80_full_false`). -/
theorem C86_copes_partial {lt : κ → κ → Bool} (ht : StrictTotal (ltRel lt)) (os : Bool) (ops : List (CartOp κ δ))
    (hc : ∃ n0, ∀ fuel, n0 ≤ fuel → CopesCartAll lt fuel (btEmpty os) [] ops) :
    ∃ t, EndsWith (fun n => cartRun lt n (btEmpty os) ops) (.ok (t, bstReturns [] (ops.map CartOp.plain))) ∧
      ServesCart lt t (bstContents [] (ops.map CartOp.plain)) (lastPrio ops) := by
  obtain ⟨t, h, hr⟩ := cartHas_run ht ops _ [] (fun _ => none) (CartHas.empty lt os _) hc
  rw [lastPrio_foldl] at h
  refine ⟨t, hr, ?_⟩
  have := h.serves ht
  simpa using this

/-! ### Insertions followed by deletions -/

/-- `insert(key, priority, data)` for each of the triples. -/
def cartInsertsOf (ins : List (κ × Int × Option δ)) : List (CartOp κ δ) := ins.map fun e => .insert e.1 e.2.1 e.2.2

/-- `delete` for each of the keys. -/
def cartDeletesOf (ks : List κ) : List (CartOp κ δ) := ks.map .delete

theorem cart_fill {lt : κ → κ → Bool} (ht : StrictTotal (ltRel lt)) : ∀ (ins : List (κ × Int × Option δ)) (t : BTree κ δ) (D : List (κ × Option δ)) (pr : κ → Option Int),
    CartHas lt t D pr → FullOf t D.length → (D = [] → RootFlag t) → (ins.map (·.1)).Nodup → (∀ e ∈ ins, ¬ Has D e.1) →
    ∃ n0, ∀ fuel, n0 ≤ fuel → CopesCartAll lt fuel t D (cartInsertsOf ins) ∧ ∀ r, cartRun lt fuel t (cartInsertsOf ins) = .ok r →
      FullOf r.1 (bstContents D ((cartInsertsOf ins).map CartOp.plain)).length := by
  intro ins
  induction ins with
  | nil => intro t D pr h hf _ _ _; exact ⟨0, fun fuel _ => ⟨trivial, fun r hr => by cases hr; exact hf⟩⟩
  | cons e ins ih =>
    intro t D pr h hf hfl hnd hab
    simp only [List.map_cons, List.nodup_cons] at hnd
    have hcop : CopesCart t D (.insert e.1 e.2.1 e.2.2) := by
      obtain ⟨f1, f2, f3, f4, f5⟩ := hf
      refine ⟨hab e (by simp), hfl, .inr ⟨f1, ?_⟩⟩
      unfold grown; split <;> omega
    obtain ⟨t1, h1, c1, n1, r1⟩ := cartHas_step ht h (.insert e.1 e.2.1 e.2.2) hcop
    obtain ⟨n2, h2⟩ := ih t1 _ _ h1 (full_insert (h.nodup_keys ht) e.1 e.2.2 hf c1) (by simp [CartOp.plain, bstSpec]) hnd.2 (by
      intro e' he' hh
      rcases has_spec_insert hh with heq | hh
      · exact hnd.1 (by rw [← heq]; exact List.mem_map_of_mem he')
      · exact hab e' (by simp [he']) hh)
    refine ⟨max n1 n2, fun fuel hfu => ⟨⟨hcop, fun r hr => ?_⟩, fun r hr => ?_⟩⟩
    · rw [r1 fuel (by omega)] at hr; cases hr
      exact (h2 fuel (by omega)).1
    · have e1 := r1 fuel (by omega)
      have hr' : (do let q ← cartRun lt fuel t1 (cartInsertsOf ins); .ok (q.1, false :: q.2) : PyM (BTree κ δ × List Bool)) = .ok r := by
        have : cartRun lt fuel t (cartInsertsOf (e :: ins)) = _ := rfl
        simp only [cartInsertsOf, List.map_cons, cartRun, e1, ok_bind] at hr
        exact hr
      cases hq : cartRun lt fuel t1 (cartInsertsOf ins) with
      | error x => rw [hq] at hr'; cases hr'
      | ok q =>
        rw [hq] at hr'
        cases hr'
        exact (h2 fuel (by omega)).2 q hq

theorem cart_deletes {lt : κ → κ → Bool} {fuel : Nat} : ∀ (ks : List κ) (t : BTree κ δ) (D : List (κ × Option δ)), CopesCartAll lt fuel t D (cartDeletesOf ks) := by
  intro ks
  induction ks with
  | nil => intro t D; exact trivial
  | cons k ks ih => intro t D; exact ⟨trivial, fun r _ => ih _ _⟩

theorem copesCart_append {lt : κ → κ → Bool} {fuel : Nat} : ∀ (a b : List (CartOp κ δ)) (t : BTree κ δ) (D : List (κ × Option δ)), CopesCartAll lt fuel t D a →
    (∀ r, cartRun lt fuel t a = .ok r → CopesCartAll lt fuel r.1 (bstContents D (a.map CartOp.plain)) b) → CopesCartAll lt fuel t D (a ++ b) := by
  intro a
  induction a with
  | nil => intro b t D _ h; exact h _ rfl
  | cons op a ih =>
    intro b t D h1 h2
    refine ⟨h1.1, fun r hr => ih b _ _ (h1.2 r hr) fun q hq => ?_⟩
    refine h2 (q.1, r.2 :: q.2) ?_
    simp only [cartRun, hr, hq, ok_bind]

/-- **C86** for distinct keys that are first all inserted, in any order and with any priorities, and then any keys deleted in any order, down to the empty
tree: every `delete` returns whether the key was there, and afterwards searches and in-order traversal answer as the entries demand and the
tree is a heap for the priorities. For treaps this holds whatever numbers are drawn. Missing: see `C86_full_false` and `C86_unmarked_root`. -/
theorem C86_fill_and_delete_partial {lt : κ → κ → Bool} (ht : StrictTotal (ltRel lt)) (os : Bool) (ins : List (κ × Int × Option δ)) (hd : (ins.map (·.1)).Nodup) (ks : List κ) :
    ∃ t, EndsWith (fun n => cartRun lt n (btEmpty os) (cartInsertsOf ins ++ cartDeletesOf ks))
        (.ok (t, bstReturns [] (insertsOf (ins.map fun e => (e.1, e.2.2)) ++ ks.map .delete))) ∧
      ServesCart lt t (bstContents [] (insertsOf (ins.map fun e => (e.1, e.2.2)) ++ ks.map .delete)) (lastPrio (cartInsertsOf ins : List (CartOp κ δ))) := by
  have ePl : ∀ ins : List (κ × Int × Option δ), (cartInsertsOf ins).map CartOp.plain = insertsOf (ins.map fun e => (e.1, e.2.2)) := by
    intro ins; simp [cartInsertsOf, insertsOf, CartOp.plain]
  have ePd : (cartDeletesOf ks : List (CartOp κ δ)).map CartOp.plain = ks.map .delete := by simp [cartDeletesOf, CartOp.plain]
  have hfe : FullOf (btEmpty os : BTree κ δ) 0 := by refine ⟨rfl, rfl, rfl, ?_, ?_⟩ <;> simp [btEmpty]
  obtain ⟨n1, h1⟩ := cart_fill ht ins (btEmpty os) [] (fun _ => none) (CartHas.empty lt os _) hfe (fun _ => ⟨_, rfl, rfl⟩) hd (by rintro e _ ⟨_, h⟩; cases h)
  obtain ⟨t, hr, hs⟩ := C86_copes_partial ht os (cartInsertsOf ins ++ cartDeletesOf ks : List (CartOp κ δ))
    ⟨n1, fun fuel hf => copesCart_append _ _ _ _ (h1 fuel hf).1 fun r _ => cart_deletes _ _ _⟩
  rw [List.map_append, ePl, ePd] at hr hs
  refine ⟨t, hr, ?_⟩
  have : lastPrio (cartInsertsOf ins ++ cartDeletesOf ks : List (CartOp κ δ)) = lastPrio (cartInsertsOf ins : List (CartOp κ δ)) := by
    have hdel : ∀ ks : List κ, lastPrio (cartDeletesOf ks : List (CartOp κ δ)) = fun _ => none := by
      intro ks
      induction ks with
      | nil => rfl
      | cons k ks ih => funext x; simp only [cartDeletesOf, List.map_cons, lastPrio]; exact congrFun ih x
    funext x
    have key : ∀ ins : List (κ × Int × Option δ), lastPrio (cartInsertsOf ins ++ cartDeletesOf ks) x = lastPrio (cartInsertsOf ins) x := by
      intro ins
      induction ins with
      | nil => exact congrFun (hdel ks) x
      | cons e ins ih =>
        simp only [cartInsertsOf, List.map_cons, List.cons_append, lastPrio] at ih ⊢
        rw [ih]
    exact key ins
  rw [this] at hs
  exact hs

/-- Such a history: ten keys; eight of them are deleted, among them the root, inner nodes and leaves, and an absent key; the array contracts. -/
example : (((List.range 10).map fun i => (7 * i % 10, ((3 * i % 11 : Nat) : Int), some i)).map (·.1)).Nodup := by decide

example : ((cartRun (fun a b : Nat => decide (a < b)) 60 (btEmpty true) (cartInsertsOf ((List.range 10).map fun i => (7 * i % 10, ((3 * i % 11 : Nat) : Int), some i)) ++ cartDeletesOf [0, 99, 7, 3, 5, 1])).bind fun r => do
      let l ← treeDfs 60 r.1 .pre none
      .ok (l.map (fun n => (n.key, n.prio)), r.2.drop 10)) =
    .ok ([(some 8, some 1), (some 6, some 2), (some 4, some 6), (some 2, some 7), (some 9, some 10)], [true, false, true, true, true, true]) := by decide +kernel

example : ((cartRun (fun a b : Nat => decide (a < b)) 60 (btEmpty true) (cartInsertsOf ((List.range 10).map fun i => (7 * i % 10, ((3 * i % 11 : Nat) : Int), some i)) ++ cartDeletesOf [0, 99, 7, 3, 5, 1, 8, 2, 6])).bind fun r => do
      let l ← treeDfs 60 r.1 .pre none
      .ok (l.map (fun n => (n.key, n.prio)), r.2.drop 16, r.1.arr.length)) =
    .ok ([(some 4, some 6), (some 9, some 10)], [true, true, true], 7) := by decide +kernel

/-- A history the array copes with although a new key is inserted after a deletion. -/
example : ∃ n0, ∀ fuel, n0 ≤ fuel → CopesCartAll (fun a b : Nat => decide (a < b)) fuel (btEmpty true : BTree Nat String) []
    [.insert 5 4 none, .insert 7 2 none, .insert 9 3 none, .delete 7, .insert 3 1 (some "x"), .delete 4] := by
  refine ⟨20, fun fuel hf => ?_⟩
  obtain ⟨m, rfl⟩ : ∃ m, fuel = m + 20 := ⟨fuel - 20, by omega⟩
  refine ⟨⟨by decide, fun _ => ⟨_, rfl, rfl⟩, .inl rfl⟩, fun r h => ?_⟩
  cases h
  refine ⟨⟨by decide, nofun, .inr ⟨rfl, by decide⟩⟩, fun r h => ?_⟩
  cases h
  refine ⟨⟨by decide, nofun, .inr ⟨rfl, by decide⟩⟩, fun r h => ?_⟩
  cases h
  refine ⟨trivial, fun r h => ?_⟩
  cases h
  refine ⟨⟨by decide, nofun, .inr ⟨rfl, by decide⟩⟩, fun r h => ?_⟩
  cases h
  exact ⟨trivial, fun _ _ => trivial⟩

/-! ## The claim fails in general -/

/-- Inserting two keys, deleting the newer and inserting another raises: the new node is not where the tree looks for it. -/
theorem C86_insert_after_delete : EndsWith (fun n => cartRun (fun a b : Nat => decide (a < b)) n (btEmpty false : BTree Nat String)
    [.insert 1 1 none, .insert 2 2 none, .delete 2, .insert 3 3 none]) (.error .attributeError) := by
  refine ⟨20, fun n hn => ?_⟩
  obtain ⟨m, rfl⟩ : ∃ m, n = m + 20 := ⟨n - 20, by omega⟩
  rfl

/-- Deleting the root leaves a root that is not marked as such; once the tree has been emptied, no key can be inserted any more. -/
theorem C86_unmarked_root : EndsWith (fun n => cartRun (fun a b : Nat => decide (a < b)) n (btEmpty false : BTree Nat String)
    [.insert 1 1 none, .insert 2 2 none, .delete 1, .delete 2, .insert 3 3 none]) (.error .typeError) := by
  refine ⟨20, fun n hn => ?_⟩
  obtain ⟨m, rfl⟩ : ∃ m, n = m + 20 := ⟨n - 20, by omega⟩
  rfl

theorem C86_full_false : ¬ C86_full (fun a b : Nat => decide (a < b)) String := by
  intro h
  obtain ⟨t, ⟨n0, hr⟩, _⟩ := h false [.insert 1 1 none, .insert 2 2 none, .delete 1, .delete 2, .insert 3 3 none]
  obtain ⟨n2, h2⟩ := C86_unmarked_root
  have e0 := hr (max n0 n2) (by omega)
  have e2 := h2 (max n0 n2) (by omega)
  simp only at e0 e2
  rw [e0] at e2
  cases e2

end Props
