import Verif.Lemmas.CppCart
import Verif.Props.Cartesian
import Verif.Props.CppBst

/-!
# C119: the C++ Cartesian tree and treap, insertions
-/
namespace Props
open Py Model Model.Cpp Spec
set_option linter.unusedSectionVars false
variable {κ δ : Type} [DecidableEq κ]

/-! ## Specification -/

/-- A history of `insert(key, priority, data)` calls on a new C++ Cartesian tree. -/
def cCartBuild (cmp : κ → κ → Int) (fuel : Nat) (os : Bool) (ops : List (κ × Int × Option δ)) : PyM (CTree κ δ) := do
  let c ← ctNew os none none
  ops.foldlM (fun c op => cCartInsert cmp fuel c op.1 op.2.1 op.2.2) c

/-- A history of `insert(key, data)` calls on a new C++ treap, with the numbers drawn. -/
def cTreapBuild (cmp : κ → κ → Int) (fuel : Nat) (os : Bool) (ops : List (κ × Int × Option δ)) : PyM (CTree κ δ) := do
  let c ← ctNew os none none
  ops.foldlM (fun c op => cTreapInsert cmp fuel c op.1 op.2.2 op.2.1) c

/-- The tree held in the array: its in-order traversal lists the inserted keys in increasing order, every node has the priority given with
its key last, and (under `H`) no node has a smaller priority than a node above it. -/
def CCartesianTreeOf (lt : κ → κ → Bool) (t : BTree κ δ) (ops : List (κ × Int × Option δ)) (H : Prop) : Prop :=
  ∃ T ns, HoldsTree t t.rootIdx T ∧ EndsWith (fun n => ctDfs n t .ino none) (.ok ns) ∧ NodesAt t T.ids ns ∧ ListsKeys lt (lastData (entries ops)) ns ∧
    (∀ n ∈ ns, ∀ k, n.key = some k → lastData (priorities ops) k = some n.prio ∧ n.prio.isSome) ∧ (H → MinHeap t.at T)

/-- **C119**, in full: after every history of insertions, search order and heap order. -/
def C119_full : Prop :=
  ∀ ops : List (Nat × Int × Option Char), ops ≠ [] → ∃ c, EndsWith (fun n => cCartBuild (ofLt fun a b => decide (a < b)) n false ops) (.ok c) ∧
    CCartesianTreeOf (fun a b => decide (a < b)) c.t ops True

/-! ## Proofs -/

theorem CartesianTreeOf.c {lt : κ → κ → Bool} {t : BTree κ δ} {ops : List (κ × Int × Option δ)} {H : Prop} (h : CartesianTreeOf lt t ops H) : CCartesianTreeOf lt t ops H := by
  obtain ⟨T, ns, a, b, c⟩ := h
  exact ⟨T, ns, a, Le.endsWith (fun n => le_dfs n t .ino none) b, c⟩

/-- The double nearest to an integer. -/
def stored (p : Int) : Int := if p < 0 then -(roundNat p.natAbs : Int) else roundNat p.natAbs

/-- The history with the priorities that are stored. -/
def storedOps (ops : List (κ × Int × Option δ)) : List (κ × Int × Option δ) := ops.map fun op => (op.1, stored op.2.1, op.2.2)

theorem roundNat_le (n : Nat) : roundNat n ≤ 2 * n := by
  unfold roundNat
  by_cases h0 : n = 0
  · subst h0; decide
  have hu : 2 ^ (n.log2 - 52) ≤ n := Nat.le_trans (Nat.pow_le_pow_right (by decide) (by omega)) ((Nat.le_log2 h0).mp (Nat.le_refl _))
  have hp : 0 < 2 ^ (n.log2 - 52) := Nat.pow_pos (by decide)
  have hq := Nat.div_mul_le_self n (2 ^ (n.log2 - 52))
  have h1 : 1 ≤ n / 2 ^ (n.log2 - 52) := Nat.div_pos hu hp
  dsimp only
  split
  · omega
  · rw [Nat.add_mul]; omega

theorem asDouble_finite {p : Int} (h : p.natAbs < 2 ^ 1023) : asDouble p = .ok (stored p) := by
  unfold asDouble stored
  rw [if_pos]
  refine Nat.lt_of_le_of_lt (roundNat_le _) ?_
  rw [show (1024 : Nat) = 1023 + 1 from rfl, Nat.pow_succ]
  omega

theorem stored_small {p : Int} (h : p.natAbs ≤ 2 ^ 53) : stored p = p := by
  unfold stored
  rw [roundNat_small h]
  split <;> omega

/-- The C++ tree does with the given priorities what the Python tree does with the stored ones. -/
theorem cCart_inserts (lt : κ → κ → Bool) (fuel : Nat) : ∀ (ops : List (κ × Int × Option δ)) (t r : BTree κ δ), Tight t → (∀ op ∈ ops, op.2.1.natAbs < 2 ^ 1023) →
    cartInserts lt fuel t (storedOps ops) = .ok r → ops.foldlM (fun c op => cCartInsert (ofLt lt) fuel c op.1 op.2.1 op.2.2) (onC t) = .ok (onC r) := by
  intro ops
  induction ops with
  | nil => intro t r h _ e; cases e; rfl
  | cons op ops ih =>
    intro t r h hp e
    simp only [cartInserts, storedOps, List.map_cons, List.foldlM_cons] at e
    obtain ⟨t1, e1, e⟩ := Py.bind_ok e
    obtain ⟨h1, h2⟩ := le_cartPut_tight h e1
    rw [List.foldlM_cons]
    have : cCartInsert (ofLt lt) fuel (onC t) op.1 op.2.1 op.2.2 = .ok (onC t1) := by
      simp only [cCartInsert, asDouble_finite (hp op (by simp)), ok_bind, h1]
    rw [this, ok_bind]
    exact ih t1 r h2 (fun o ho => hp o (by simp [ho])) e

theorem cTreap_inserts (lt : κ → κ → Bool) (fuel : Nat) : ∀ (ops : List (κ × Int × Option δ)) (t r : BTree κ δ), Tight t →
    treapInserts lt fuel t ops = .ok r → ops.foldlM (fun c op => cTreapInsert (ofLt lt) fuel c op.1 op.2.2 op.2.1) (onC t) = .ok (onC r) := by
  intro ops
  induction ops with
  | nil => intro t r h e; cases e; rfl
  | cons op ops ih =>
    intro t r h e
    simp only [treapInserts, List.foldlM_cons] at e
    obtain ⟨t1, e1, e⟩ := Py.bind_ok e
    obtain ⟨h1, h2⟩ := le_cartPut_tight h e1
    rw [List.foldlM_cons]
    have : cTreapInsert (ofLt lt) fuel (onC t) op.1 op.2.2 op.2.1 = .ok (onC t1) := h1
    rw [this, ok_bind]
    exact ih t1 r h2 e

theorem cCartBuild_run (lt : κ → κ → Bool) (os : Bool) (ops : List (κ × Int × Option δ)) (hp : ∀ op ∈ ops, op.2.1.natAbs < 2 ^ 1023) {t : BTree κ δ}
    (h : EndsWith (fun n => cartInserts lt n (btEmpty os) (storedOps ops)) (.ok t)) : EndsWith (fun n => cCartBuild (ofLt lt) n os ops) (.ok (onC t)) := by
  obtain ⟨n0, h⟩ := h
  refine ⟨n0, fun n hn => ?_⟩
  simp only [cCartBuild, ctNew_empty, ok_bind]
  exact cCart_inserts lt n ops _ _ (Tight.empty os) hp (h n hn)

/-- **C119**, search: after any history of insertions (keys may repeat) with priorities below 2^1023 in absolute value, `search` finds exactly the inserted keys, each with the data
inserted last. -/
theorem C119_search {lt : κ → κ → Bool} (ht : StrictTotal (ltRel lt)) (os : Bool) (ops : List (κ × Int × Option δ)) (hp : ∀ op ∈ ops, op.2.1.natAbs < 2 ^ 1023) :
    ∃ c, EndsWith (fun n => cCartBuild (ofLt lt) n os ops) (.ok c) ∧
      ∀ k, ∃ r, EndsWith (fun n => cSearch (ofLt lt) n c.t k) (.ok r) ∧ Answers c.t k (lastData (entries ops) k) r := by
  obtain ⟨t, h1, h2⟩ := C80_search ht os (storedOps ops)
  refine ⟨onC t, cCartBuild_run lt os ops hp h1, fun k => ?_⟩
  obtain ⟨r, h3, h4⟩ := h2 k
  rw [show entries (storedOps ops) = entries ops by simp [entries, storedOps]] at h4
  exact ⟨r, Le.endsWith (fun n => le_search lt n t k) h3, h4⟩

/-- **C119**, with the priorities as they are stored: the tree is that of the history in which every priority is replaced by the nearest double, and a heap for these if no key is inserted
twice. -/
theorem C119_stored_partial {lt : κ → κ → Bool} (ht : StrictTotal (ltRel lt)) (os : Bool) (ops : List (κ × Int × Option δ)) (hne : ops ≠ []) (hp : ∀ op ∈ ops, op.2.1.natAbs < 2 ^ 1023) :
    ∃ c, EndsWith (fun n => cCartBuild (ofLt lt) n os ops) (.ok c) ∧ CCartesianTreeOf lt c.t (storedOps ops) (ops.map (·.1)).Nodup := by
  obtain ⟨t, h1, h2⟩ := C80_tree ht os (storedOps ops) (by intro h; apply hne; simpa [storedOps] using h)
  rw [show (storedOps ops).map (·.1) = ops.map (·.1) by simp [storedOps]] at h2
  exact ⟨onC t, cCartBuild_run lt os ops hp h1, h2.c⟩

/-- **C119** if no key is inserted twice and the priorities are at most 2^53 in absolute value. Missing: other histories, for which the claim is false (`C119_full_false`, `C119_again`). -/
theorem C119_heap_order_partial {lt : κ → κ → Bool} (ht : StrictTotal (ltRel lt)) (os : Bool) (ops : List (κ × Int × Option δ)) (hne : ops ≠ []) (hd : (ops.map (·.1)).Nodup)
    (hp : ∀ op ∈ ops, op.2.1.natAbs ≤ 2 ^ 53) :
    ∃ c, EndsWith (fun n => cCartBuild (ofLt lt) n os ops) (.ok c) ∧ CCartesianTreeOf lt c.t ops True := by
  have hlt : (2 : Nat) ^ 53 < 2 ^ 1023 := Nat.pow_lt_pow_right (by decide) (by decide)
  obtain ⟨c, h1, h2⟩ := C119_stored_partial ht os ops hne fun op h => Nat.lt_of_le_of_lt (hp op h) hlt
  have e : storedOps ops = ops := by
    unfold storedOps
    rw [List.map_congr_left (g := id)]
    · simp
    · intro op ho; simp [stored_small (hp op ho)]
  rw [e] at h2
  obtain ⟨T, ns, a, b, c', d, e, f⟩ := h2
  exact ⟨c, h1, T, ns, a, b, c', d, e, fun _ => f hd⟩

/-- **C119** for treaps, whatever numbers are drawn: search order always, heap order if no key is inserted twice. -/
theorem C119_treap_partial {lt : κ → κ → Bool} (ht : StrictTotal (ltRel lt)) (os : Bool) (ops : List (κ × Int × Option δ)) (hne : ops ≠ []) :
    ∃ c, EndsWith (fun n => cTreapBuild (ofLt lt) n os ops) (.ok c) ∧ CCartesianTreeOf lt c.t ops (ops.map (·.1)).Nodup ∧
      ∀ k, ∃ r, EndsWith (fun n => cSearch (ofLt lt) n c.t k) (.ok r) ∧ Answers c.t k (lastData (entries ops) k) r := by
  obtain ⟨t, ⟨n0, h1⟩, h2, h3⟩ := C80_treap_partial ht os ops hne
  refine ⟨onC t, ⟨n0, fun n hn => ?_⟩, h2.c, fun k => ?_⟩
  · simp only [cTreapBuild, ctNew_empty, ok_bind]
    exact cTreap_inserts lt n ops _ _ (Tight.empty os) (h1 n hn)
  · obtain ⟨r, h3, h4⟩ := h3 k
    exact ⟨r, Le.endsWith (fun n => le_search lt n t k) h3, h4⟩

/-! ## The claim fails in general -/

/-- The priorities 2^53 + 1 and 2^53 are stored as the same double: the key with the greater one stays above the other. -/
theorem C119_rounded : EndsWith (fun n => cCartBuild (δ := Char) (ofLt fun a b : Nat => decide (a < b)) n false [(1, 9007199254740993, none), (2, 9007199254740992, none)])
    (.ok ⟨⟨[some { key := some 1, data := none, right := some 1, isRoot := true, prio := some 9007199254740992 },
        some { key := some 2, data := none, parent := some 0, prio := some 9007199254740992 }, none], 2, 2, 0, 2, false⟩, 3⟩) := by
  refine ⟨20, fun n hn => ?_⟩
  obtain ⟨m, rfl⟩ : ∃ m, n = m + 20 := ⟨n - 20, by omega⟩
  simp only [cCartBuild, ctNew_empty, ok_bind]
  refine cCart_inserts _ _ _ _ ⟨_, 2, 2, 0, 2, false⟩ (Tight.empty false) ?_ ?_
  · intro op ho
    have hlt : (2 : Nat) ^ 54 < 2 ^ 1023 := Nat.pow_lt_pow_right (by decide) (by decide)
    refine Nat.lt_trans ?_ hlt
    simp only [List.mem_cons, List.not_mem_nil, or_false] at ho
    rcases ho with rfl | rfl <;> decide
  · have e1 : stored 9007199254740993 = 9007199254740992 := by decide +kernel
    have e2 : stored 9007199254740992 = 9007199254740992 := by decide +kernel
    simp only [storedOps, List.map_cons, List.map_nil, e1, e2]
    rfl

theorem C119_full_false : ¬ C119_full := by
  intro h
  obtain ⟨c, ⟨n0, hrun⟩, T, ns, hH, hdfs, hat, _, hpr, hheap⟩ := h [(1, 9007199254740993, none), (2, 9007199254740992, none)] (by simp)
  obtain ⟨n1, e⟩ := C119_rounded
  have := hrun (n0 + n1) (by omega)
  dsimp only at this
  have e2 := e (n0 + n1) (by omega)
  dsimp only at e2
  rw [e2] at this
  cases this
  obtain ⟨hr, hl, _⟩ := hH
  cases T with
  | leaf => cases hr
  | node l i r =>
    have hr0 : i = 0 := by simpa [Shape.root] using hr
    subst hr0
    have hm : some ({ key := some 1, data := none, right := some 1, isRoot := true, prio := some 9007199254740992 } : BNode Nat Char) ∈ ns.map some := by
      rw [← hat]
      exact List.mem_map.mpr ⟨0, by simp [Shape.ids], rfl⟩
    obtain ⟨n, hn, hn'⟩ := List.mem_map.mp hm
    injection hn' with hn'
    have := (hpr n hn 1 (by rw [hn'])).1
    rw [hn'] at this
    revert this
    decide +kernel

/-- Even with small priorities, inserting a present key again with a greater one leaves it above its children. -/
theorem C119_again : ∃ c, EndsWith (fun n => cCartBuild (δ := Char) (ofLt fun a b : Nat => decide (a < b)) n false [(1, 1, none), (2, 2, none), (1, 9, none)]) (.ok c) ∧
    c.t.at c.t.rootIdx = some { key := some 1, data := none, right := some 1, isRoot := true, prio := some 9 } ∧
    c.t.at 1 = some { key := some 2, data := none, parent := some 0, prio := some 2 } := by
  refine ⟨onC ⟨[some { key := some 1, data := none, right := some 1, isRoot := true, prio := some 9 },
        some { key := some 2, data := none, parent := some 0, prio := some 2 }, none], 2, 2, 0, 2, false⟩, ⟨20, fun n hn => ?_⟩, rfl, rfl⟩
  obtain ⟨m, rfl⟩ : ∃ m, n = m + 20 := ⟨n - 20, by omega⟩
  simp only [cCartBuild, ctNew_empty, ok_bind]
  refine cCart_inserts _ _ _ _ _ (Tight.empty false) ?_ ?_
  · intro op ho
    have hlt : (2 : Nat) ^ 54 < 2 ^ 1023 := Nat.pow_lt_pow_right (by decide) (by decide)
    refine Nat.lt_trans ?_ hlt
    simp only [List.mem_cons, List.not_mem_nil, or_false] at ho
    rcases ho with rfl | rfl | rfl <;> decide
  · have e1 : stored 1 = 1 := by decide +kernel
    have e2 : stored 2 = 2 := by decide +kernel
    have e3 : stored 9 = 9 := by decide +kernel
    simp only [storedOps, List.map_cons, List.map_nil, e1, e2, e3]
    rfl

/-- An integer that no double approximates: the call fails. -/
theorem C119_overflow (k : κ) (d : Option δ) (c : CTree κ δ) (cmp : κ → κ → Int) (fuel : Nat) : cCartInsert cmp fuel c k (2 ^ 1024) d = .error .systemError := by
  have : asDouble (2 ^ 1024) = .error .systemError := by decide +kernel
  simp only [cCartInsert, this, error_bind]

/-- A concrete history with distinct keys. -/
example : (cCartBuild (ofLt fun a b : Nat => decide (a < b)) 40 false
      [(5, 3, some 'a'), (2, -1, some 'b'), (8, 2, none), (1, 7, some 'c'), (6, -5, none)]).bind (fun c => do
        let l ← ctDfs 40 c.t .pre none
        .ok (c.t.rootIdx, l.map (fun n => (n.key, n.prio)))) =
      .ok (4, [(some 6, some (-5)), (some 2, some (-1)), (some 1, some 7), (some 5, some 3), (some 8, some 2)]) := by decide +kernel
end Props
