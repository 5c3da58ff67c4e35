import Verif.Model.BinomialHeap
import Verif.Props.Heap

/-! # C36, C38, C82: binomial heaps -/
namespace Props
open Py Model Spec
variable {κ δ : Type}

/-! ## Specification: the entries, the shape -/

mutual
/-- The entries stored in the tree below a node. -/
def nodeEntries : BinNode κ δ → List (κ × δ)
  | .mk k d cs => (k, d) :: nodesEntries cs
/-- The entries stored in the trees below the nodes. -/
def nodesEntries : List (BinNode κ δ) → List (κ × δ)
  | [] => []
  | c :: cs => nodeEntries c ++ nodesEntries cs
end

/-- The entries of a heap. -/
def bhEntries (h : List (BinTree κ δ)) : List (κ × δ) := h.flatMap fun t => nodeEntries t.root

/-- A heap-ordered binomial tree of order `n`: a single node, or two trees of order `n - 1`, the one with the larger root made the last child
of the root of the other. -/
inductive Binomial (le : κ → κ → Bool) : Nat → BinNode κ δ → Prop
  | one (k : κ) (d : δ) : Binomial le 0 (.mk k d [])
  | two (n : Nat) (k : κ) (d : δ) (cs : List (BinNode κ δ)) (c : BinNode κ δ) (h1 : Binomial le n (.mk k d cs)) (h2 : Binomial le n c)
      (hle : le k c.key = true) : Binomial le (n + 1) (.mk k d (cs ++ [c]))

/-- A binomial heap: heap-ordered binomial trees of strictly increasing orders. -/
structure BHeapOk (le : κ → κ → Bool) (h : List (BinTree κ δ)) : Prop where
  trees : ∀ t ∈ h, Binomial le t.order t.root
  orders : h.Pairwise fun a b => a.order < b.order

/-! ## Trees -/

theorem nodesEntries_append (l m : List (BinNode κ δ)) : nodesEntries (l ++ m) = nodesEntries l ++ nodesEntries m := by
  induction l with
  | nil => simp [nodesEntries]
  | cons c l ih => simp [nodesEntries, ih]

theorem nodeEntries_mk (k : κ) (d : δ) (cs : List (BinNode κ δ)) : nodeEntries (.mk k d cs) = (k, d) :: nodesEntries cs := by
  rw [nodeEntries]

theorem nodesEntries_one (c : BinNode κ δ) : nodesEntries [c] = nodeEntries c := by simp [nodesEntries]

variable {le : κ → κ → Bool}

/-- The keys are totally ordered by `<=`. -/
abbrev KeyOrder (le : κ → κ → Bool) : Prop := TotalPreorder fun a b => le a b = true

theorem KeyOrder.not_le (ho : KeyOrder le) {a b : κ} (h : le a b = false) : le b a = true := by
  rcases ho.total a b with h' | h'
  · rw [h] at h'; cases h'
  · exact h'

theorem KeyOrder.refl (ho : KeyOrder le) (a : κ) : le a a = true := by
  rcases ho.total a a with h | h <;> exact h

theorem Binomial.root_le (ho : KeyOrder le) {n : Nat} {t : BinNode κ δ} (h : Binomial le n t) : ∀ e ∈ nodeEntries t, le t.key e.1 = true := by
  induction h with
  | one k d =>
    intro e he
    simp [nodeEntries, nodesEntries] at he
    subst he; exact ho.refl k
  | two n k d cs c h1 h2 hle ih1 ih2 =>
    intro e he
    rw [nodeEntries_mk, nodesEntries_append, nodesEntries_one, ← List.cons_append, ← nodeEntries_mk] at he
    rcases List.mem_append.1 he with he | he
    · exact ih1 e he
    · exact ho.trans _ _ _ hle (ih2 e he)

/-- A binomial tree of order `n` has `2 ^ n` entries. -/
theorem Binomial.size {n : Nat} {t : BinNode κ δ} (h : Binomial le n t) : (nodeEntries t).length = 2 ^ n := by
  induction h with
  | one k d => simp [nodeEntries, nodesEntries]
  | two n k d cs c h1 h2 hle ih1 ih2 =>
    rw [nodeEntries_mk, nodesEntries_append, nodesEntries_one, ← List.cons_append, ← nodeEntries_mk, List.length_append, ih1, ih2]
    omega

/-- The children of a tree of order `n` are trees of orders `0, …, n - 1`. -/
theorem Binomial.children {n : Nat} {t : BinNode κ δ} (h : Binomial le n t) : t.children.length = n ∧
    ∀ i c, t.children[i]? = some c → Binomial le i c := by
  induction h with
  | one k d => simp [BinNode.children]
  | two n k d cs c h1 h2 hle ih1 ih2 =>
    simp only [BinNode.children] at ih1 ⊢
    refine ⟨by simp [ih1.1], ?_⟩
    intro i c' hc
    rcases Nat.lt_trichotomy i n with h | h | h
    · rw [List.getElem?_append_left (by omega)] at hc
      exact ih1.2 i c' hc
    · subst h
      rw [List.getElem?_append_right (by omega), ih1.1] at hc
      simp at hc
      exact hc ▸ h2
    · rw [List.getElem?_eq_none (by simp [ih1.1]; omega)] at hc
      cases hc

theorem mergeTree_ok (ho : KeyOrder le) {t1 t2 : BinTree κ δ} (h1 : Binomial le t1.order t1.root) (h2 : Binomial le t2.order t2.root)
    (he : t1.order = t2.order) : ∃ t, mergeTree le t1 t2 = .ok t ∧ Binomial le t.order t.root ∧ t.order = t1.order + 1 ∧
      (nodeEntries t.root).Perm (nodeEntries t1.root ++ nodeEntries t2.root) := by
  obtain ⟨⟨k1, d1, c1⟩, n1⟩ := t1
  obtain ⟨⟨k2, d2, c2⟩, n2⟩ := t2
  dsimp only at he h1 h2
  subst he
  by_cases hk : le k1 k2 = true
  · refine ⟨⟨.mk k1 d1 (c1 ++ [.mk k2 d2 c2]), n1 + 1⟩, ?_, .two n1 k1 d1 c1 (.mk k2 d2 c2) h1 h2 hk, rfl, ?_⟩
    · simp [mergeTree, addSubTree, BinNode.key, BinNode.data, BinNode.children, hk]
    · simp only [nodeEntries_mk, nodesEntries_append, nodesEntries_one, List.cons_append]
      exact .refl _
  · have hk' : le k1 k2 = false := by simpa using hk
    refine ⟨⟨.mk k2 d2 (c2 ++ [.mk k1 d1 c1]), n1 + 1⟩, ?_, .two n1 k2 d2 c2 (.mk k1 d1 c1) h2 h1 (KeyOrder.not_le ho hk'), rfl, ?_⟩
    · simp [mergeTree, addSubTree, BinNode.key, BinNode.data, BinNode.children, hk']
    · simp only [nodeEntries_mk, nodesEntries_append, nodesEntries_one]
      exact List.perm_append_comm (l₁ := (k2, d2) :: nodesEntries c2) (l₂ := (k1, d1) :: nodesEntries c1)

/-! ## Merging heaps -/

theorem bhEntries_append (l m : List (BinTree κ δ)) : bhEntries (l ++ m) = bhEntries l ++ bhEntries m := by simp [bhEntries]
theorem bhEntries_cons (t : BinTree κ δ) (m : List (BinTree κ δ)) : bhEntries (t :: m) = nodeEntries t.root ++ bhEntries m := by simp [bhEntries]

/-- All orders are at most `n`. -/
def OrdersLe (h : List (BinTree κ δ)) (n : Nat) : Prop := ∀ t ∈ h, t.order ≤ n

theorem mergeLast_ok (ho : KeyOrder le) {acc : List (BinTree κ δ)} {t : BinTree κ δ} (ha : BHeapOk le acc) (ht : Binomial le t.order t.root)
    (hl : OrdersLe acc t.order) : ∃ acc', mergeLast le acc t = .ok acc' ∧ BHeapOk le acc' ∧ OrdersLe acc' (t.order + 1) ∧
      (OrdersLe acc (t.order - 1) → 0 < t.order → OrdersLe acc' t.order) ∧
      (bhEntries acc').Perm (bhEntries acc ++ nodeEntries t.root) := by
  rcases List.eq_nil_or_concat acc with rfl | ⟨a, l, rfl⟩
  · refine ⟨[t], rfl, ⟨by simpa using ht, by simp⟩, by simp [OrdersLe], by simp [OrdersLe], by simp [bhEntries]⟩
  · rw [List.concat_eq_append] at ha hl ⊢
    have hp := List.pairwise_append.1 ha.orders
    have hal : ∀ x ∈ a, x.order < l.order := fun x hx => hp.2.2 x hx l (by simp)
    have hlt : l.order ≤ t.order := hl l (by simp)
    rw [mergeLast, List.getLast?_append]
    simp only [List.getLast?_singleton, Option.some_or]
    by_cases he : l.order = t.order
    · obtain ⟨m, e, hm, hmo, hperm⟩ := mergeTree_ok ho (ha.trees l (by simp)) ht he
      rw [if_pos he, e, ok_bind]
      refine ⟨a ++ [m], by simp, ⟨?_, ?_⟩, ?_, ?_, ?_⟩
      · intro x hx
        rcases List.mem_append.1 hx with hx | hx
        · exact ha.trees x (by simp [hx])
        · have : x = m := by simpa using hx
          exact this ▸ hm
      · refine List.pairwise_append.2 ⟨hp.1, by simp, ?_⟩
        intro x hx y hy
        have : y = m := by simpa using hy
        subst this
        have := hal x hx; omega
      · intro x hx
        rcases List.mem_append.1 hx with hx | hx
        · have := hal x hx; omega
        · have : x = m := by simpa using hx
          subst this; omega
      · intro h1 h2
        have := h1 l (by simp)
        omega
      · rw [bhEntries_append, bhEntries_append, bhEntries_cons, bhEntries_cons, List.append_assoc]
        refine List.Perm.append_left _ ?_
        simpa [bhEntries] using hperm
    · rw [if_neg he]
      refine ⟨_, rfl, ⟨?_, ?_⟩, ?_, ?_, ?_⟩
      · intro x hx
        rcases List.mem_append.1 hx with hx | hx
        · exact ha.trees x hx
        · have : x = t := by simpa using hx
          exact this ▸ ht
      · refine List.pairwise_append.2 ⟨ha.orders, by simp, ?_⟩
        intro x hx y hy
        have : y = t := by simpa using hy
        subst this
        rcases List.mem_append.1 hx with hx | hx
        · have := hal x hx; omega
        · have : x = l := by simpa using hx
          subst this; omega
      · intro x hx
        rcases List.mem_append.1 hx with hx | hx
        · have := hl x hx; omega
        · have : x = t := by simpa using hx
          subst this; omega
      · intro _ _ x hx
        rcases List.mem_append.1 hx with hx | hx
        · exact hl x hx
        · have : x = t := by simpa using hx
          subst this; omega
      · rw [bhEntries_append, bhEntries_cons]; simp [bhEntries]

/-- All orders are at least `n`. -/
def OrdersGe (h : List (BinTree κ δ)) (n : Nat) : Prop := ∀ t ∈ h, n ≤ t.order

theorem BHeapOk.tail {t : BinTree κ δ} {ts : List (BinTree κ δ)} (h : BHeapOk le (t :: ts)) : BHeapOk le ts ∧ OrdersGe ts (t.order + 1) :=
  ⟨⟨fun x hx => h.trees x (by simp [hx]), (List.pairwise_cons.1 h.orders).2⟩, fun x hx => (List.pairwise_cons.1 h.orders).1 x hx⟩

theorem mergeHeaps_ok (ho : KeyOrder le) : ∀ (fuel : Nat) (h1 h2 acc : List (BinTree κ δ)) (n : Nat), h1.length + h2.length ≤ fuel →
    BHeapOk le h1 → BHeapOk le h2 → BHeapOk le acc → OrdersLe acc n → OrdersGe h1 n → OrdersGe h2 n →
    ∃ h, mergeHeaps le fuel h1 h2 acc = .ok h ∧ BHeapOk le h ∧ (bhEntries h).Perm (bhEntries acc ++ (bhEntries h1 ++ bhEntries h2)) := by
  intro fuel
  induction fuel with
  | zero =>
    intro h1 h2 acc n hf _ _ ha _ _ _
    have e1 : h1 = [] := List.length_eq_zero_iff.1 (by omega)
    have e2 : h2 = [] := List.length_eq_zero_iff.1 (by omega)
    subst e1; subst e2
    exact ⟨acc, rfl, ha, by simp [bhEntries]⟩
  | succ fuel ih =>
    intro h1 h2 acc n hf k1 k2 ha hl g1 g2
    cases h1 with
    | nil =>
      cases h2 with
      | nil => exact ⟨acc, rfl, ha, by simp [bhEntries]⟩
      | cons u us =>
        have hu := g2 u (by simp)
        obtain ⟨acc', e, a1, a2, _, a4⟩ := mergeLast_ok ho ha (k2.trees u (by simp)) (fun t ht => Nat.le_trans (hl t ht) hu)
        obtain ⟨h, e', b1, b2⟩ := ih [] us acc' (u.order + 1) (by simp at hf ⊢; omega) k1 k2.tail.1 a1 a2 (by intro t ht; simp at ht) k2.tail.2
        refine ⟨h, by rw [mergeHeaps, e, ok_bind, e'], b1, b2.trans ?_⟩
        rw [bhEntries_cons]
        have := a4.append_right (bhEntries ([] : List (BinTree κ δ)) ++ bhEntries us)
        refine this.trans ?_
        simp [bhEntries]
    | cons t ts =>
      have ht := g1 t (by simp)
      cases h2 with
      | nil =>
        obtain ⟨acc', e, a1, a2, _, a4⟩ := mergeLast_ok ho ha (k1.trees t (by simp)) (fun x hx => Nat.le_trans (hl x hx) ht)
        obtain ⟨h, e', b1, b2⟩ := ih ts [] acc' (t.order + 1) (by simp at hf ⊢; omega) k1.tail.1 k2 a1 a2 k1.tail.2 (by intro t ht; simp at ht)
        refine ⟨h, by rw [mergeHeaps, e, ok_bind, e'], b1, b2.trans ?_⟩
        rw [bhEntries_cons]
        have := a4.append_right (bhEntries ts ++ bhEntries ([] : List (BinTree κ δ)))
        refine this.trans ?_
        simp [bhEntries]
      | cons u us =>
        have hu := g2 u (by simp)
        rw [mergeHeaps]
        by_cases he : t.order = u.order
        · rw [if_pos he]
          obtain ⟨m, em, m1, m2, m3⟩ := mergeTree_ok ho (k1.trees t (by simp)) (k2.trees u (by simp)) he
          obtain ⟨acc', e, a1, _, a3, a4⟩ := mergeLast_ok ho ha m1 (fun x hx => by have := hl x hx; omega)
          obtain ⟨h, e', b1, b2⟩ := ih ts us acc' (t.order + 1) (by simp at hf ⊢; omega) k1.tail.1 k2.tail.1 a1
            (by have := a3 (fun x hx => by have := hl x hx; omega) (by omega); rwa [m2] at this) k1.tail.2 (he ▸ k2.tail.2)
          refine ⟨h, by rw [em, ok_bind, e, ok_bind, e'], b1, b2.trans ?_⟩
          rw [bhEntries_cons, bhEntries_cons]
          refine ((a4.trans (m3.append_left _)).append_right _).trans ?_
          rw [List.append_assoc]
          refine List.Perm.append_left _ ?_
          rw [List.append_assoc, List.append_assoc]
          refine List.Perm.append_left _ ?_
          rw [← List.append_assoc, ← List.append_assoc]
          exact List.Perm.append_right _ List.perm_append_comm
        · rw [if_neg he]
          by_cases hlt : t.order < u.order
          · rw [if_pos hlt]
            obtain ⟨acc', e, a1, a2, _, a4⟩ := mergeLast_ok ho ha (k1.trees t (by simp)) (fun x hx => Nat.le_trans (hl x hx) ht)
            obtain ⟨h, e', b1, b2⟩ := ih ts (u :: us) acc' (t.order + 1) (by simp at hf ⊢; omega) k1.tail.1 k2 a1 a2 k1.tail.2
              (by
                intro x hx
                rcases List.mem_cons.1 hx with rfl | hx
                · omega
                · have := k2.tail.2 x hx; omega)
            refine ⟨h, by rw [e, ok_bind, e'], b1, b2.trans ?_⟩
            rw [bhEntries_cons t]
            refine (a4.append_right _).trans ?_
            simp
          · rw [if_neg hlt]
            obtain ⟨acc', e, a1, a2, _, a4⟩ := mergeLast_ok ho ha (k2.trees u (by simp)) (fun x hx => Nat.le_trans (hl x hx) hu)
            obtain ⟨h, e', b1, b2⟩ := ih (t :: ts) us acc' (u.order + 1) (by simp at hf ⊢; omega) k1 k2.tail.1 a1 a2
              (by
                intro x hx
                rcases List.mem_cons.1 hx with rfl | hx
                · omega
                · have := k1.tail.2 x hx; omega) k2.tail.2
            refine ⟨h, by rw [e, ok_bind, e'], b1, b2.trans ?_⟩
            rw [bhEntries_cons u]
            refine (a4.append_right _).trans ?_
            rw [List.append_assoc]
            refine List.Perm.append_left _ ?_
            rw [← List.append_assoc, ← List.append_assoc]
            exact List.Perm.append_right _ List.perm_append_comm

theorem BHeapOk.nil : BHeapOk le ([] : List (BinTree κ δ)) := ⟨by simp, by simp⟩

/-- C38: merging two binomial heaps gives a binomial heap with the entries of both. -/
theorem C38_merge (ho : KeyOrder le) {h1 h2 : List (BinTree κ δ)} (k1 : BHeapOk le h1) (k2 : BHeapOk le h2) :
    ∃ h, bhMerge le h1 h2 = .ok h ∧ BHeapOk le h ∧ (bhEntries h).Perm (bhEntries h1 ++ bhEntries h2) := by
  obtain ⟨h, e, a, b⟩ := mergeHeaps_ok ho (h1.length + h2.length) h1 h2 [] 0 (Nat.le_refl _) k1 k2 .nil (by simp [OrdersLe]) (by simp [OrdersGe]) (by simp [OrdersGe])
  exact ⟨h, e, a, by simpa [bhEntries] using b⟩

/-- C38: `insert` adds one entry. -/
theorem C38_insert (ho : KeyOrder le) {h : List (BinTree κ δ)} (hk : BHeapOk le h) (k : κ) (d : δ) :
    ∃ h', bhInsert le h k d = .ok h' ∧ BHeapOk le h' ∧ (bhEntries h').Perm ((k, d) :: bhEntries h) := by
  obtain ⟨h', e, a, b⟩ := C38_merge ho hk (h2 := [⟨.mk k d [], 0⟩]) ⟨by simpa using .one k d, by simp⟩
  refine ⟨h', e, a, b.trans ?_⟩
  simp [bhEntries, nodeEntries, nodesEntries]

/-! ## The minimum -/

theorem findMinLoop_spec (ho : KeyOrder le) : ∀ (l pre : List (BinTree κ δ)) (best : Option (BinNode κ δ × Nat)),
    (best = none → pre = []) →
    (∀ n i, best = some (n, i) → (∃ t, pre[i]? = some t ∧ t.root = n) ∧ ∀ t ∈ pre, le n.key t.root.key = true) →
    (findMinLoop le l pre.length best = none → pre ++ l = []) ∧
    (∀ n i, findMinLoop le l pre.length best = some (n, i) →
      (∃ t, (pre ++ l)[i]? = some t ∧ t.root = n) ∧ ∀ t ∈ pre ++ l, le n.key t.root.key = true) := by
  intro l
  induction l with
  | nil =>
    intro pre best h1 h2
    simp only [findMinLoop, List.append_nil]
    exact ⟨h1, h2⟩
  | cons t l ih =>
    intro pre best h1 h2
    have hpre : ∀ (b : Option (BinNode κ δ × Nat)), b ≠ none →
        (∀ n i, b = some (n, i) → (∃ x, (pre ++ [t])[i]? = some x ∧ x.root = n) ∧ ∀ x ∈ pre ++ [t], le n.key x.root.key = true) →
        (findMinLoop le l (pre.length + 1) b = none → pre ++ t :: l = []) ∧
        (∀ n i, findMinLoop le l (pre.length + 1) b = some (n, i) →
          (∃ x, (pre ++ t :: l)[i]? = some x ∧ x.root = n) ∧ ∀ x ∈ pre ++ t :: l, le n.key x.root.key = true) := by
      intro b hb hb'
      have := ih (pre ++ [t]) b (fun e => absurd e hb) hb'
      simpa using this
    cases best with
    | none =>
      have := h1 rfl
      subst this
      simp only [findMinLoop]
      exact hpre _ (by simp) (by
        intro n i e
        simp only [Option.some.injEq, Prod.mk.injEq] at e
        obtain ⟨rfl, rfl⟩ := e
        simp [ho.refl])
    | some b =>
      obtain ⟨n, i⟩ := b
      obtain ⟨⟨x, hx, hxn⟩, hmin⟩ := h2 n i rfl
      have hi : i < pre.length := by
        rcases Nat.lt_or_ge i pre.length with h | h
        · exact h
        · rw [List.getElem?_eq_none h] at hx; cases hx
      simp only [findMinLoop]
      split
      · rename_i hc
        have hc' : le n.key t.root.key = false := by simpa using hc
        have hle := KeyOrder.not_le ho hc'
        refine hpre _ (by simp) ?_
        intro n' i' e
        simp only [Option.some.injEq, Prod.mk.injEq] at e
        obtain ⟨rfl, rfl⟩ := e
        refine ⟨⟨t, by simp, rfl⟩, ?_⟩
        intro y hy
        rcases List.mem_append.1 hy with hy | hy
        · exact ho.trans _ _ _ hle (hmin y hy)
        · have : y = t := by simpa using hy
          subst this; exact ho.refl _
      · rename_i hc
        have hc' : le n.key t.root.key = true := by simpa using hc
        refine hpre _ (by simp) ?_
        intro n' i' e
        simp only [Option.some.injEq, Prod.mk.injEq] at e
        obtain ⟨rfl, rfl⟩ := e
        refine ⟨⟨x, by rw [List.getElem?_append_left hi]; exact hx, hxn⟩, ?_⟩
        intro y hy
        rcases List.mem_append.1 hy with hy | hy
        · exact hmin y hy
        · have : y = t := by simpa using hy
          subst this; exact hc'

theorem bhFindMin_spec (ho : KeyOrder le) (h : List (BinTree κ δ)) : (h = [] ∧ bhFindMin le h = .error .indexError) ∨
    ∃ n i t, bhFindMin le h = .ok (n, i) ∧ h[i]? = some t ∧ t.root = n ∧ ∀ t ∈ h, le n.key t.root.key = true := by
  obtain ⟨h1, h2⟩ := findMinLoop_spec (le := le) ho h [] none (fun _ => rfl) (by intro n i e; cases e)
  simp only [List.length_nil, List.nil_append] at h1 h2
  unfold bhFindMin
  cases hb : findMinLoop le h 0 none with
  | none => left; exact ⟨h1 hb, rfl⟩
  | some r =>
    obtain ⟨n, i⟩ := r
    obtain ⟨⟨t, a, b⟩, c⟩ := h2 n i hb
    exact Or.inr ⟨n, i, t, rfl, a, b, c⟩

theorem childTrees_spec : ∀ (cs : List (BinNode κ δ)) (k : Nat), (∀ i c, cs[i]? = some c → Binomial le (k + i) c) →
    BHeapOk le (childTrees k cs) ∧ OrdersGe (childTrees k cs) k ∧ bhEntries (childTrees k cs) = nodesEntries cs := by
  intro cs
  induction cs with
  | nil => intro k _; exact ⟨.nil, by simp [OrdersGe, childTrees], by simp [childTrees, bhEntries, nodesEntries]⟩
  | cons c cs ih =>
    intro k h
    obtain ⟨a, b, e⟩ := ih (k + 1) (by
      intro i x hx
      have := h (i + 1) x (by simpa using hx)
      rwa [show k + 1 + i = k + (i + 1) by omega])
    have h0 : Binomial le k c := h 0 c (by simp)
    refine ⟨⟨?_, ?_⟩, ?_, ?_⟩
    · intro t ht
      rw [childTrees] at ht
      rcases List.mem_cons.1 ht with rfl | ht
      · exact h0
      · exact a.trees t ht
    · rw [childTrees, List.pairwise_cons]
      exact ⟨fun t ht => by have := b t ht; show k < t.order; omega, a.orders⟩
    · intro t ht
      rw [childTrees] at ht
      rcases List.mem_cons.1 ht with rfl | ht
      · exact Nat.le_refl _
      · have := b t ht; omega
    · rw [childTrees, bhEntries_cons, e, nodesEntries]

theorem eraseIdx_perm {α : Type} : ∀ (l : List α) (i : Nat) (x : α), l[i]? = some x → l.Perm (x :: l.eraseIdx i) := by
  intro l
  induction l with
  | nil => intro i x h; simp at h
  | cons y l ih =>
    intro i x h
    cases i with
    | zero => simp at h; subst h; exact .refl _
    | succ i =>
      simp only [List.getElem?_cons_succ] at h
      rw [List.eraseIdx_cons_succ]
      exact ((ih i x h).cons y).trans (List.Perm.swap x y _)

/-- C38: `find_minimum` raises `IndexError` on an empty heap; on any other heap it returns a node that holds an entry of least key, and
`delete_minimum` removes exactly this entry. -/
theorem C38_minimum (ho : KeyOrder le) {h : List (BinTree κ δ)} (hk : BHeapOk le h) :
    (bhEntries h = [] ∧ bhFindMin le h = .error .indexError ∧ bhDeleteMin le h = .error .indexError) ∨
    ∃ n i h', bhFindMin le h = .ok (n, i) ∧ (∀ e ∈ bhEntries h, le n.key e.1 = true) ∧ bhDeleteMin le h = .ok h' ∧ BHeapOk le h' ∧
      (bhEntries h).Perm ((n.key, n.data) :: bhEntries h') := by
  rcases bhFindMin_spec (le := le) ho h with ⟨rfl, e⟩ | ⟨n, i, t, e, hi, ht, hmin⟩
  · left; exact ⟨by simp [bhEntries], e, by rw [bhDeleteMin, e]; rfl⟩
  · right
    have htm : t ∈ h := List.mem_of_getElem? hi
    have hbin := hk.trees t htm
    rw [ht] at hbin
    obtain ⟨c1, c2, c3⟩ := childTrees_spec (le := le) n.children 0 (by simpa using hbin.children.2)
    have hk' : BHeapOk le (h.eraseIdx i) := ⟨fun x hx => hk.trees x (List.mem_of_mem_eraseIdx hx),
      List.Pairwise.sublist (List.eraseIdx_sublist _ _) hk.orders⟩
    obtain ⟨h', e', a, b⟩ := C38_merge ho hk' c1
    refine ⟨n, i, h', e, ?_, ?_, a, ?_⟩
    · intro x hx
      obtain ⟨u, hu, hxu⟩ := List.mem_flatMap.1 hx
      exact ho.trans _ _ _ (hmin u hu) ((hk.trees u hu).root_le ho x hxu)
    · rw [bhDeleteMin, e, ok_bind]; exact e'
    · have h1 := (eraseIdx_perm h i t hi).flatMap_right (fun t => nodeEntries t.root)
      refine h1.trans ?_
      rw [List.flatMap_cons, ht]
      obtain ⟨k, d, cs⟩ := n
      rw [nodeEntries_mk]
      simp only [BinNode.key, BinNode.data, List.cons_append]
      refine List.Perm.cons _ ?_
      simp only [BinNode.children] at c3
      refine (List.perm_append_comm).trans ?_
      rw [← c3]
      exact b.symm

/-- The empty heap. -/
theorem C38_is_empty {h : List (BinTree κ δ)} (_ : BHeapOk le h) : bhIsEmpty h = (bhEntries h).isEmpty := by
  cases h with
  | nil => rfl
  | cons t ts =>
    obtain ⟨⟨k, d, cs⟩, n⟩ := t
    simp [bhIsEmpty, bhEntries_cons, nodeEntries_mk]


/-! ## Histories -/

/-- Heaps as a user builds them. -/
inductive HeapExpr (κ δ : Type)
  | new
  | insert (h : HeapExpr κ δ) (key : κ) (data : δ)
  | merge (h other : HeapExpr κ δ)
  | deleteMin (h : HeapExpr κ δ)

/-- The modelled heap; a `delete_minimum` that raises leaves the heap as it is. -/
def HeapExpr.eval (le : κ → κ → Bool) : HeapExpr κ δ → PyM (List (BinTree κ δ))
  | .new => .ok []
  | .insert h k d => do
    let h ← h.eval le
    bhInsert le h k d
  | .merge h o => do
    let h ← h.eval le
    let o ← o.eval le
    bhMerge le h o
  | .deleteMin h => do
    let h ← h.eval le
    match bhDeleteMin le h with
    | .ok h' => .ok h'
    | .error _ => .ok h

/-- The possible contents: every `deleteMin` takes out one entry of least key. -/
def HeapExpr.Holds (le : κ → κ → Bool) : HeapExpr κ δ → List (κ × δ) → Prop
  | .new, l => l = []
  | .insert h k d, l => ∃ l', h.Holds le l' ∧ l.Perm ((k, d) :: l')
  | .merge h o, l => ∃ l' m, h.Holds le l' ∧ o.Holds le m ∧ l.Perm (l' ++ m)
  | .deleteMin h, l => ∃ l', h.Holds le l' ∧ ((l' = [] ∧ l = []) ∨ ∃ x, l'.Perm (x :: l) ∧ ∀ y ∈ l', le x.1 y.1 = true)

/-- C38: every heap that can be built is a binomial heap with the right content; no call other than `find_minimum` and `delete_minimum` of
an empty heap raises. -/
theorem C38_history (ho : KeyOrder le) (e : HeapExpr κ δ) : ∃ h, e.eval le = .ok h ∧ BHeapOk le h ∧ e.Holds le (bhEntries h) := by
  induction e with
  | new => exact ⟨[], rfl, .nil, rfl⟩
  | insert e k d ih =>
    obtain ⟨h, e1, hk, hh⟩ := ih
    obtain ⟨h', e2, hk', hp⟩ := C38_insert ho hk k d
    exact ⟨h', by rw [HeapExpr.eval, e1, ok_bind, e2], hk', _, hh, hp⟩
  | merge e o ih1 ih2 =>
    obtain ⟨h, e1, hk, hh⟩ := ih1
    obtain ⟨h2, e2, hk2, hh2⟩ := ih2
    obtain ⟨h', e3, hk', hp⟩ := C38_merge ho hk hk2
    exact ⟨h', by rw [HeapExpr.eval, e1, ok_bind, e2, ok_bind, e3], hk', _, _, hh, hh2, hp⟩
  | deleteMin e ih =>
    obtain ⟨h, e1, hk, hh⟩ := ih
    rcases C38_minimum ho hk with ⟨h0, _, e2⟩ | ⟨n, i, h', _, hmin, e2, hk', hp⟩
    · exact ⟨h, by rw [HeapExpr.eval, e1, ok_bind, e2], hk, _, hh, Or.inl ⟨h0, h0⟩⟩
    · exact ⟨h', by rw [HeapExpr.eval, e1, ok_bind, e2], hk', _, hh, Or.inr ⟨_, hp, hmin⟩⟩

/-- The number of trees is logarithmic: the largest tree alone has `2 ^ order` entries and orders are distinct. -/
theorem C38_orders {h : List (BinTree κ δ)} (hk : BHeapOk le h) : ∀ t ∈ h, 2 ^ t.order ≤ (bhEntries h).length := by
  intro t ht
  obtain ⟨a, b, rfl⟩ := List.append_of_mem ht
  rw [bhEntries_append, bhEntries_cons, List.length_append, List.length_append, (hk.trees t ht).size]
  omega

/-! ## The priority queue -/

/-- queue.py:469-498 `BinomialHeapPriorityQueue`; `pop` returns the data, `peek` the node. -/
def binomialPqStep (le : κ → κ → Bool) (h : List (BinTree κ δ)) : PqOp δ κ → List (BinTree κ δ) × Out (Option κ × δ)
  | .push v p => match bhInsert le h p v with
    | .ok h' => (h', .done)
    | .error e => (h, .raised e)
  | .pop => match bpqPop le h with
    | .ok (v, h') => (h', .elem (none, v))
    | .error e => (h, .raised e)
  | .peek => match bhFindMin le h with
    | .ok (n, _) => (h, .elem (some n.key, n.data))
    | .error e => (h, .raised e)
  | .isEmpty => (h, .flag (bhIsEmpty h))

theorem PqServes.perm {ν π : Type} {le : π → π → Prop} : ∀ (ops : List (PqOp ν π)) {l l' : List (π × ν)} {outs : List (Out (Option π × ν))},
    l.Perm l' → PqServes le l ops outs → PqServes le l' ops outs := by
  intro ops
  induction ops with
  | nil => intro l l' outs _ h; exact h
  | cons op ops ih =>
    intro l l' outs hp h
    have hempty : l = [] → l' = [] := fun e => by subst e; simpa using hp
    have hall : ∀ {p : π}, (∀ e ∈ l, le p e.1) → ∀ e ∈ l', le p e.1 := fun h e he => h e (hp.mem_iff.2 he)
    cases op with
    | push v p =>
      obtain ⟨rest, e, hr⟩ := h
      exact ⟨rest, e, ih (hp.cons _) hr⟩
    | pop =>
      rcases h with ⟨e, rest, eo, hr⟩ | ⟨p, v, m, rest, h1, h2, eo, hr⟩
      · exact Or.inl ⟨hempty e, rest, eo, ih hp hr⟩
      · exact Or.inr ⟨p, v, m, rest, hp.symm.trans h1, hall h2, eo, hr⟩
    | peek =>
      rcases h with ⟨e, rest, eo, hr⟩ | ⟨p, v, rest, h1, h2, eo, hr⟩
      · exact Or.inl ⟨hempty e, rest, eo, ih hp hr⟩
      · exact Or.inr ⟨p, v, rest, hp.mem_iff.1 h1, hall h2, eo, ih hp hr⟩
    | isEmpty =>
      obtain ⟨rest, e, hr⟩ := h
      refine ⟨rest, ?_, ih hp hr⟩
      rw [e]
      have : l.isEmpty = l'.isEmpty := by
        cases l <;> cases l' <;> simp_all
      rw [this]

/-- C36: every history of calls on a `BinomialHeapPriorityQueue` is served in priority order. -/
theorem C36_binomial_priority_queue (ho : KeyOrder le) (ops : List (PqOp δ κ)) :
    PqServes (fun a b => le a b = true) [] ops (trace (binomialPqStep le) [] ops) := by
  have key : ∀ (ops : List (PqOp δ κ)) (h : List (BinTree κ δ)), BHeapOk le h →
      PqServes (fun a b => le a b = true) (bhEntries h) ops (trace (binomialPqStep le) h ops) := by
    intro ops
    induction ops with
    | nil => intro h _; rfl
    | cons op ops ih =>
      intro h hk
      cases op with
      | push v p =>
        obtain ⟨h', e, hk', hp⟩ := C38_insert ho hk p v
        refine ⟨trace (binomialPqStep le) h' ops, by simp [trace, binomialPqStep, e], ?_⟩
        exact PqServes.perm ops hp (ih h' hk')
      | pop =>
        rcases C38_minimum ho hk with ⟨h0, e1, e2⟩ | ⟨n, i, h', e1, hmin, e2, hk', hp⟩
        · refine Or.inl ⟨h0, trace (binomialPqStep le) h ops, ?_, ih h hk⟩
          simp [trace, binomialPqStep, bpqPop, e1, bind, Except.bind]
        · refine Or.inr ⟨n.key, n.data, _, trace (binomialPqStep le) h' ops, hp, hmin, ?_, ih h' hk'⟩
          simp [trace, binomialPqStep, bpqPop, e1, e2, bind, Except.bind]
      | peek =>
        rcases C38_minimum ho hk with ⟨h0, e1, e2⟩ | ⟨n, i, h', e1, hmin, e2, hk', hp⟩
        · exact Or.inl ⟨h0, trace (binomialPqStep le) h ops, by simp [trace, binomialPqStep, e1], ih h hk⟩
        · exact Or.inr ⟨n.key, n.data, trace (binomialPqStep le) h ops, hp.mem_iff.2 (by simp), hmin, by simp [trace, binomialPqStep, e1], ih h hk⟩
      | isEmpty => exact ⟨trace (binomialPqStep le) h ops, by simp [trace, binomialPqStep, C38_is_empty hk], ih h hk⟩
  exact key ops [] .nil

/-! ## decrease_key and delete -/

/-- The node that a path leads to. -/
def nodeAt : List Nat → BinNode κ δ → Option (BinNode κ δ)
  | [], n => some n
  | i :: path, n => match n.children[i]? with
    | none => none
    | some c => nodeAt path c

/-- The children in a binomial tree with a root of any key not above those of the children. -/
theorem Binomial.replace {n : Nat} {k : κ} {d : δ} {cs : List (BinNode κ δ)} (h : Binomial le n (.mk k d cs)) : ∀ (i : Nat) (c c' : BinNode κ δ) (k' : κ) (d' : δ),
    cs[i]? = some c → Binomial le i c' → le k' c'.key = true → (∀ x ∈ cs, le k' x.key = true) → Binomial le n (.mk k' d' (cs.set i c')) := by
  generalize ht : BinNode.mk k d cs = t at h
  induction h generalizing k d cs with
  | one k d =>
    cases ht
    intro i c c' k' d' hc
    simp at hc
  | two n k0 d0 cs0 c0 h1 h2 hle ih1 ih2 =>
    cases ht
    intro i c c' k' d' hc hb hk hall
    have hlen := h1.children.1
    simp only [BinNode.children] at hlen
    rcases Nat.lt_trichotomy i n with h | h | h
    · rw [List.getElem?_append_left (by omega)] at hc
      rw [List.set_append_left _ _ (by omega)]
      exact .two n k' d' _ c0 (ih1 rfl i c c' k' d' hc hb hk (fun x hx => hall x (by simp [hx]))) h2 (hall c0 (by simp))
    · subst h
      rw [List.set_append_right _ _ (by omega), hlen, Nat.sub_self]
      simp only [List.set_cons_zero]
      refine .two i k' d' cs0 c' ?_ hb hk
      cases cs0 with
      | nil =>
        have : i = 0 := by simpa using hlen.symm
        subst this; exact .one k' d'
      | cons x xs =>
        have hx : (x :: xs)[0]? = some x := rfl
        have := ih1 rfl 0 x x k' d' hx (h1.children.2 0 x hx) (hall x (by simp)) (fun y hy => hall y (by simp only [List.mem_append]; exact Or.inl hy))
        simpa using this
    · rw [List.getElem?_eq_none (by simp [hlen]; omega)] at hc
      cases hc

/-- The root key bounds the children's. -/
theorem Binomial.child_le {n : Nat} {t : BinNode κ δ} (h : Binomial le n t) : ∀ c ∈ t.children, le t.key c.key = true := by
  induction h with
  | one k d => simp [BinNode.children]
  | two n k d cs c h1 h2 hle ih1 ih2 =>
    intro x hx
    simp only [BinNode.children, List.mem_append, List.mem_singleton] at hx
    rcases hx with hx | rfl
    · exact ih1 x hx
    · exact hle

theorem nodesEntries_set (cs : List (BinNode κ δ)) (i : Nat) (c : BinNode κ δ) (h : cs[i]? = some c) : ∃ rest, (nodesEntries cs).Perm (nodeEntries c ++ rest) ∧
    ∀ c', (nodesEntries (cs.set i c')).Perm (nodeEntries c' ++ rest) := by
  have hi : i < cs.length := by
    rcases Nat.lt_or_ge i cs.length with h' | h'
    · exact h'
    · rw [List.getElem?_eq_none h'] at h; cases h
  have h1 : cs = cs.take i ++ c :: cs.drop (i + 1) := by
    have := List.getElem?_eq_some_iff.1 h
    obtain ⟨_, e⟩ := this
    rw [← e]
    simp
  refine ⟨nodesEntries (cs.take i) ++ nodesEntries (cs.drop (i + 1)), ?_, ?_⟩
  · conv => lhs; rw [h1]
    rw [nodesEntries_append, nodesEntries]
    rw [← List.append_assoc, ← List.append_assoc]
    exact List.Perm.append_right _ List.perm_append_comm
  · intro c'
    rw [List.set_eq_take_append_cons_drop, if_pos hi, nodesEntries_append, nodesEntries]
    rw [← List.append_assoc, ← List.append_assoc]
    exact List.Perm.append_right _ List.perm_append_comm

/-- Another root entry. -/
theorem Binomial.reroot {n : Nat} {k : κ} {d : δ} {cs : List (BinNode κ δ)} (h : Binomial le n (.mk k d cs)) (k' : κ) (d' : δ)
    (hall : ∀ x ∈ cs, le k' x.key = true) : Binomial le n (.mk k' d' cs) := by
  cases cs with
  | nil =>
    have := h.children.1
    simp [BinNode.children] at this
    subst this; exact .one k' d'
  | cons c cs =>
    have h0 : (c :: cs)[0]? = some c := rfl
    have := h.replace 0 c c k' d' h0 (h.children.2 0 c h0) (hall c (by simp)) hall
    simpa using this

theorem mem_nodesEntries {cs : List (BinNode κ δ)} {c : BinNode κ δ} (h : c ∈ cs) : (c.key, c.data) ∈ nodesEntries cs := by
  induction cs with
  | nil => cases h
  | cons x cs ih =>
    rw [nodesEntries]
    rcases List.mem_cons.1 h with rfl | h
    · obtain ⟨k, d, cs'⟩ := c
      rw [nodeEntries_mk]; simp [BinNode.key, BinNode.data]
    · exact List.mem_append_right _ (ih h)

/-- `decrease_key` inside one tree. -/
theorem decreaseNode_ok (ho : KeyOrder le) (newKey : κ) : ∀ (path : List Nat) (n : Nat) (t x : BinNode κ δ), Binomial le n t → nodeAt path t = some x →
    le x.key newKey = false → ∃ t' moving rest, decreaseNode le newKey path t = .ok (t', moving) ∧ Binomial le n t' ∧
      (nodeEntries t).Perm ((x.key, x.data) :: rest) ∧ (nodeEntries t').Perm ((newKey, x.data) :: rest) ∧
      ((moving = true ∧ t'.key = newKey ∧ t'.data = x.data) ∨ (moving = false ∧ t'.key = t.key)) := by
  intro path
  induction path with
  | nil =>
    intro n t x hb hx hlt
    simp only [nodeAt, Option.some.injEq] at hx
    subst hx
    obtain ⟨k, d, cs⟩ := t
    simp only [BinNode.key] at hlt
    have hle : le newKey k = true := KeyOrder.not_le ho hlt
    refine ⟨.mk newKey d cs, true, nodesEntries cs, by simp [decreaseNode, hlt], ?_, ?_, ?_, Or.inl ⟨rfl, rfl, rfl⟩⟩
    · exact hb.reroot newKey d fun x hx => ho.trans _ _ _ hle (hb.child_le x hx)
    · rw [nodeEntries_mk]; exact .refl _
    · rw [nodeEntries_mk]; exact .refl _
  | cons i path ih =>
    intro n t x hb hx hlt
    obtain ⟨k, d, cs⟩ := t
    simp only [nodeAt, BinNode.children] at hx
    cases hc : cs[i]? with
    | none => rw [hc] at hx; cases hx
    | some c =>
      rw [hc] at hx
      dsimp only at hx
      have hbc : Binomial le i c := hb.children.2 i c hc
      have hkc : le k c.key = true := hb.child_le c (List.mem_of_getElem? hc)
      have hall : ∀ x ∈ cs, le k x.key = true := fun x hx => hb.child_le x hx
      obtain ⟨R, hR1, hR2⟩ := nodesEntries_set cs i c hc
      obtain ⟨c', moving, rest, e, hb', p1, p2, hm⟩ := ih i c x hbc hx hlt
      have hent1 : (nodeEntries (.mk k d cs)).Perm ((x.key, x.data) :: ((k, d) :: (rest ++ R))) := by
        rw [nodeEntries_mk]
        exact ((hR1.trans (p1.append_right R)).cons (k, d)).trans (List.Perm.swap _ _ _)
      have hent2 : (nodeEntries (.mk k d (cs.set i c'))).Perm ((newKey, x.data) :: ((k, d) :: (rest ++ R))) := by
        rw [nodeEntries_mk]
        exact (((hR2 c').trans (p2.append_right R)).cons (k, d)).trans (List.Perm.swap _ _ _)
      have hstay : le k c'.key = true → decreaseNode le newKey (i :: path) (.mk k d cs) = .ok (.mk k d (cs.set i c'), false) →
          ∃ t' moving rest, decreaseNode le newKey (i :: path) (.mk k d cs) = .ok (t', moving) ∧ Binomial le n t' ∧
            (nodeEntries (.mk k d cs)).Perm ((x.key, x.data) :: rest) ∧ (nodeEntries t').Perm ((newKey, x.data) :: rest) ∧
            ((moving = true ∧ t'.key = newKey ∧ t'.data = x.data) ∨ (moving = false ∧ t'.key = (BinNode.mk k d cs).key)) := by
        intro h1 h2
        exact ⟨_, false, _, h2, hb.replace i c c' k d hc hb' h1 hall, hent1, hent2, Or.inr ⟨rfl, rfl⟩⟩
      rcases hm with ⟨rfl, hk', hd'⟩ | ⟨rfl, hk'⟩
      · by_cases hle : le k newKey = true
        · exact hstay (by rw [hk']; exact hle) (by simp [decreaseNode, hc, e, bind, Except.bind, hk', hle])
        · have hle' : le k newKey = false := by simpa using hle
          have hnk := KeyOrder.not_le ho hle'
          obtain ⟨k', d', cs'⟩ := c'
          simp only [BinNode.key, BinNode.data] at hk' hd'
          subst hk'; subst hd'
          have hcs' : (nodesEntries cs').Perm rest := by
            rw [nodeEntries_mk] at p2
            exact p2.cons_inv
          have hge : ∀ y ∈ cs', le k y.key = true := by
            intro y hy
            have h1 := hcs'.mem_iff.1 (mem_nodesEntries hy)
            have h2 : (y.key, y.data) ∈ nodeEntries c := p1.mem_iff.2 (by simp [h1])
            exact ho.trans _ _ _ hkc (hbc.root_le ho _ h2)
          refine ⟨.mk k' x.data (cs.set i (.mk k d cs')), true, _, ?_, ?_, hent1, ?_, Or.inl ⟨rfl, rfl, rfl⟩⟩
          · simp [decreaseNode, hc, e, bind, Except.bind, BinNode.key, BinNode.data, BinNode.children, hle']
          · exact hb.replace i c (.mk k d cs') k' x.data hc (hb'.reroot k d hge) hnk (fun y hy => ho.trans _ _ _ hnk (hall y hy))
          · rw [nodeEntries_mk]
            refine List.Perm.cons _ ((hR2 _).trans ?_)
            rw [nodeEntries_mk]
            exact (hcs'.append_right R).cons _
      · exact hstay (by rw [hk']; exact hkc) (by simp [decreaseNode, hc, e, bind, Except.bind])

/-- The node at a position of a heap. -/
def heapNodeAt (h : List (BinTree κ δ)) (tree : Nat) (path : List Nat) : Option (BinNode κ δ) :=
  match h[tree]? with
  | none => none
  | some t => nodeAt path t.root

theorem bhDecrease_entries {h : List (BinTree κ δ)} {i : Nat} {t : BinTree κ δ} (hi : h[i]? = some t) : ∃ rest,
    (bhEntries h).Perm (nodeEntries t.root ++ rest) ∧ ∀ t', (bhEntries (h.set i t')).Perm (nodeEntries t'.root ++ rest) := by
  have hi' : i < h.length := by
    rcases Nat.lt_or_ge i h.length with h' | h'
    · exact h'
    · rw [List.getElem?_eq_none h'] at hi; cases hi
  have h1 : h = h.take i ++ t :: h.drop (i + 1) := by
    obtain ⟨_, e⟩ := List.getElem?_eq_some_iff.1 hi
    rw [← e]; simp
  refine ⟨bhEntries (h.take i) ++ bhEntries (h.drop (i + 1)), ?_, ?_⟩
  · conv => lhs; rw [h1]
    rw [bhEntries_append, bhEntries_cons, ← List.append_assoc, ← List.append_assoc]
    exact List.Perm.append_right _ List.perm_append_comm
  · intro t'
    rw [List.set_eq_take_append_cons_drop, if_pos hi', bhEntries_append, bhEntries_cons, ← List.append_assoc, ← List.append_assoc]
    exact List.Perm.append_right _ List.perm_append_comm

/-- C82: `decrease_key` of any node of a binomial heap to a smaller key replaces the key of exactly this entry and gives a binomial heap of
the same orders; a key that is not smaller raises `ValueError`. -/
theorem C82_decrease_key (ho : KeyOrder le) {h : List (BinTree κ δ)} (hk : BHeapOk le h) (tree : Nat) (path : List Nat) (x : BinNode κ δ)
    (hx : heapNodeAt h tree path = some x) (newKey : κ) (hlt : le x.key newKey = false) :
    ∃ h' rest, bhDecreaseKey le h tree path newKey = .ok h' ∧ BHeapOk le h' ∧ (bhEntries h).Perm ((x.key, x.data) :: rest) ∧
      (bhEntries h').Perm ((newKey, x.data) :: rest) ∧ h'.map BinTree.order = h.map BinTree.order := by
  rw [heapNodeAt] at hx
  cases hi : h[tree]? with
  | none => rw [hi] at hx; cases hx
  | some t =>
    rw [hi] at hx
    dsimp only at hx
    obtain ⟨t', moving, rest, e, hb, p1, p2, _⟩ := decreaseNode_ok ho newKey path t.order t.root x (hk.trees t (List.mem_of_getElem? hi)) hx hlt
    obtain ⟨R, q1, q2⟩ := bhDecrease_entries hi
    have hord : (h.set tree ⟨t', t.order⟩).map BinTree.order = h.map BinTree.order := by
      rw [List.map_set]
      apply List.ext_getElem?
      intro j
      rw [List.getElem?_set]
      split
      · rename_i hj
        subst hj
        split
        · simp [hi]
        · rename_i hh
          simp at hh
          rw [List.getElem?_eq_none hh] at hi; cases hi
      · rfl
    refine ⟨h.set tree ⟨t', t.order⟩, rest ++ R, ?_, ⟨?_, ?_⟩, q1.trans (p1.append_right R), (q2 _).trans (p2.append_right R), hord⟩
    · rw [bhDecreaseKey, hi]
      dsimp only
      rw [e]; rfl
    · intro y hy
      rcases List.mem_or_eq_of_mem_set hy with hy | rfl
      · exact hk.trees y hy
      · exact hb
    · have := hk.orders
      rw [← List.pairwise_map (f := BinTree.order) (R := fun a b => a < b)] at this ⊢
      rwa [hord]

theorem decreaseNode_error (newKey : κ) : ∀ (path : List Nat) (t x : BinNode κ δ), nodeAt path t = some x → le x.key newKey = true →
    decreaseNode le newKey path t = .error .valueError := by
  intro path
  induction path with
  | nil =>
    intro t x hx hle
    simp only [nodeAt, Option.some.injEq] at hx
    subst hx
    obtain ⟨k, d, cs⟩ := t
    simp only [BinNode.key] at hle
    simp [decreaseNode, hle]
  | cons i path ih =>
    intro t x hx hle
    obtain ⟨k, d, cs⟩ := t
    simp only [nodeAt, BinNode.children] at hx
    cases hc : cs[i]? with
    | none => rw [hc] at hx; cases hx
    | some c =>
      rw [hc] at hx
      simp [decreaseNode, hc, ih c x hx hle, bind, Except.bind]

theorem C82_decrease_key_error (h : List (BinTree κ δ)) (tree : Nat) (path : List Nat) (x : BinNode κ δ)
    (hx : heapNodeAt h tree path = some x) (newKey : κ) (hle : le x.key newKey = true) :
    bhDecreaseKey le h tree path newKey = .error .valueError := by
  rw [heapNodeAt] at hx
  cases hi : h[tree]? with
  | none => rw [hi] at hx; cases hx
  | some t =>
    rw [hi] at hx
    rw [bhDecreaseKey, hi]
    dsimp only
    rw [decreaseNode_error newKey path t.root x hx hle]; rfl

/-- C82: `delete` of any node of a binomial heap removes exactly its entry. -/
theorem C82_delete (ho : KeyOrder le) (minusOne : κ → κ) (hm : ∀ k, le k (minusOne k) = false) {h : List (BinTree κ δ)} (hk : BHeapOk le h)
    (tree : Nat) (path : List Nat) (x : BinNode κ δ) (hx : heapNodeAt h tree path = some x) :
    ∃ h', bhDelete le minusOne h tree path = .ok h' ∧ BHeapOk le h' ∧ ∃ data, (bhEntries h).Perm ((x.key, data) :: bhEntries h') ∧ data = x.data := by
  have hmem : (x.key, x.data) ∈ bhEntries h := by
    rw [heapNodeAt] at hx
    cases hi : h[tree]? with
    | none => rw [hi] at hx; cases hx
    | some t =>
      rw [hi] at hx
      dsimp only at hx
      refine List.mem_flatMap.2 ⟨t, List.mem_of_getElem? hi, ?_⟩
      generalize t.root = r at hx
      clear hi
      induction path generalizing r with
      | nil =>
        simp only [nodeAt, Option.some.injEq] at hx
        subst hx
        obtain ⟨k, d, cs⟩ := r
        simp [nodeEntries_mk, BinNode.key, BinNode.data]
      | cons i path ih =>
        obtain ⟨k, d, cs⟩ := r
        simp only [nodeAt, BinNode.children] at hx
        cases hc : cs[i]? with
        | none => rw [hc] at hx; cases hx
        | some c =>
          rw [hc] at hx
          obtain ⟨R, hR, _⟩ := nodesEntries_set cs i c hc
          rw [nodeEntries_mk]
          exact List.mem_cons_of_mem _ (hR.mem_iff.2 (List.mem_append_left _ (ih c hx)))
  rcases C38_minimum ho hk with ⟨h0, _⟩ | ⟨n, i, h1, e1, hmin, _⟩
  · rw [h0] at hmem; cases hmem
  · have hn := hmin _ hmem
    dsimp only at hn
    have hstrict : ∀ {k : κ}, le n.key k = true → le k (minusOne n.key) = false := by
      intro k hnk
      cases hh : le k (minusOne n.key) with
      | false => rfl
      | true => exact absurd (ho.trans _ _ _ hnk hh) (by rw [hm]; simp)
    obtain ⟨h2, rest, e2, hk2, p1, p2, _⟩ := C82_decrease_key ho hk tree path x hx (minusOne n.key) (hstrict hn)
    rcases C38_minimum ho hk2 with ⟨h0, _⟩ | ⟨n', i', h3, e3, hmin', e4, hk3, p3⟩
    · have := p2.mem_iff.2 (List.mem_cons_self ..)
      rw [h0] at this; cases this
    · have hrest : ∀ y ∈ rest, le y.1 (minusOne n.key) = false := by
        intro y hy
        exact hstrict (hmin y (p1.mem_iff.2 (by simp [hy])))
      have hn' : (n'.key, n'.data) = (minusOne n.key, x.data) := by
        have hin := p2.mem_iff.1 (p3.mem_iff.2 (List.mem_cons_self ..))
        rcases List.mem_cons.1 hin with h | h
        · exact h
        · have h1 := hrest _ h
          have h2 := hmin' (minusOne n.key, x.data) (p2.mem_iff.2 (by simp))
          dsimp only at h1 h2
          rw [h1] at h2; cases h2
      refine ⟨h3, by rw [bhDelete, e1, ok_bind]; dsimp only; rw [e2, ok_bind, e4], hk3, x.data, ?_, rfl⟩
      rw [hn'] at p3
      exact p1.trans ((p2.symm.trans p3).cons_inv.cons _)

/-! ## Non-vacuity -/

abbrev intLe (a b : Int) : Bool := decide (a ≤ b)
theorem intLe_order : KeyOrder intLe :=
  ⟨fun a b => by simp only [intLe, decide_eq_true_eq]; omega, fun a b c => by simp only [intLe, decide_eq_true_eq]; omega⟩

/-- Four entries and three more. -/
def exHeapExpr : HeapExpr Int String :=
  .merge (.insert (.insert (.insert (.insert .new 5 "e") 3 "c") 8 "h") 1 "a") (.deleteMin (.insert (.insert (.insert (.insert .new 2 "b") 9 "i") 2 "bb") 7 "g"))

example : ((exHeapExpr.eval intLe).map fun h => (h.map BinTree.order, bhEntries h)) =
    .ok ([0, 1, 2], [(7, "g"), (2, "b"), (9, "i"), (1, "a"), (8, "h"), (3, "c"), (5, "e")]) := by decide +kernel

example : ∀ k : Int, intLe k (k - 1) = false := by intro k; simp only [intLe, decide_eq_false_iff_not]; omega

/-- Handles do not survive `decrease_key`: when the entry moves up, the node object that was decreased holds the entry of its former parent.
Here the node of key 3 is decreased to 0; the same node afterwards holds the entry `(1, "a")`. -/
theorem C82_handle_moves :
    (do
      let h ← (HeapExpr.insert (.insert (.new : HeapExpr Int String) 1 "a") 3 "c").eval intLe
      let h' ← bhDecreaseKey intLe h 0 [0] 0
      .ok ((heapNodeAt h 0 [0]).map fun n => (n.key, n.data), (heapNodeAt h' 0 [0]).map fun n => (n.key, n.data)) : PyM _) =
    .ok (some (3, "c"), some (1, "a")) := by decide +kernel

end Props
