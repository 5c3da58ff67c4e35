import Verif.Props.Cartesian
import Verif.Props.RbAgain

/-!
# C80, exactly: which insertions keep the heap order

Inserting a present key gives its node the new priority, and the node then only moves up, and not even that if it is marked as root, which every node
stays that ever was the root.
-/
namespace Props
open Py Model Spec
set_option linter.unusedSectionVars false
variable {κ δ : Type} [DecidableEq κ]

/-- No node has a smaller priority than a node above it. -/
def HeapOrdered (t : BTree κ δ) : Prop := ∃ T, HoldsTree t t.rootIdx T ∧ MinHeap t.at T

/-- `search(k)` finds a node with a child of a priority below `prio`, or a node marked as root whose parent has a priority above `prio`. -/
def Misfit (lt : κ → κ → Bool) (t : BTree κ δ) (k : κ) (prio : Int) : Prop :=
  ∃ i n, EndsWith (fun fuel => bstSearch lt fuel t k) (.ok (some i)) ∧ t.at i = some n ∧
    ((∃ j m p, (n.left = some j ∨ n.right = some j) ∧ t.at j = some m ∧ m.prio = some p ∧ p < prio) ∨
      (n.isRoot = true ∧ ∃ j m p, n.parent = some j ∧ t.at j = some m ∧ m.prio = some p ∧ prio < p))

/-- When the node is marked as root, or its parent has no greater priority, `insert` leaves it where it is. -/
theorem cart_stays {t : BTree κ δ} {c : Around} {A B : Shape} {i : Nat} {k : κ} {prio : Int} {d : Option δ} {n : BNode κ δ}
    (tree : TreeAt true t (Around.plug c (.node A i B))) (en : t.at i = some n)
    (hst : n.isRoot = true ∨ ∃ f c' m p, c = f :: c' ∧ t.at f.idx = some m ∧ m.prio = some p ∧ p ≤ prio) :
    ∃ t', TreeAt true t' (Around.plug c (.node A i B)) ∧ prioOf t'.at i = some prio ∧ (∀ j, j ≠ i → prioOf t'.at j = prioOf t.at j) ∧
      ∀ fuel > 0, cartFinish fuel t k prio d i = .ok t' := by
  obtain ⟨t1, e1, a1, r1, q1⟩ := modNode_spec (t := t) (i := i)
    (fun n => { key := some k, data := d, prio := some prio, left := n.left, right := n.right, parent := n.parent }) (by rw [en]; rfl)
  have T1 : TreeAt true t1 (Around.plug c (.node A i B)) := treeAt_mapAt a1 q1 (fun _ => rfl) tree
  have oth1 : ∀ j, j ≠ i → t1.at j = t.at j := fun j hj => by rw [a1]; simp [mapAt, hj]
  have ei : t1.at i = some { key := some k, data := d, prio := some prio, left := n.left, right := n.right, parent := n.parent } := by rw [a1, mapAt_same en]
  cases hroot : n.isRoot with
  | true =>
    obtain ⟨t2, e2, a2, r2, q2⟩ := modNode_spec (t := t1) (i := i) (fun n => { n with isRoot := true }) (by rw [ei]; rfl)
    refine ⟨t2, treeAt_mapAt a2 q2 (fun _ => rfl) T1, ?_, fun j hj => ?_, fun fuel _ => ?_⟩
    · unfold prioOf; rw [a2, mapAt_same ei]; rfl
    · unfold prioOf; rw [a2, ← oth1 j hj]; simp [mapAt, hj]
    · simp only [cartFinish, getNode_ok en, ok_bind, e1, hroot, if_true, e2]
  | false =>
    rw [hroot] at hst
    obtain h | ⟨f, c', m, p, rfl, em, ep, hle⟩ := hst
    · cases h
    have hne : f.idx ≠ i := fun e => T1.fresh.2.2 (by rw [← e]; exact frame_ids.mpr (.inl rfl))
    obtain ⟨n1, en1, _, _, np1⟩ := T1.node
    rw [ei] at en1
    cases en1
    have hp : n.parent = some f.idx := np1
    have em1 : t1.at f.idx = some m := by rw [oth1 _ hne, em]
    refine ⟨t1, T1, by unfold prioOf; rw [ei]; rfl, fun j hj => by unfold prioOf; rw [oth1 j hj], fun fuel hf => ?_⟩
    obtain ⟨g, rfl⟩ : ∃ g, fuel = g + 1 := ⟨fuel - 1, by omega⟩
    have hcond : bubbleCond i t1 = .ok false := by
      simp only [bubbleCond, getNode_ok ei, ok_bind, hp, getNode_ok em1, ep, prioGt]
      rw [decide_eq_false (by omega)]
    simp only [cartFinish, getNode_ok en, ok_bind, e1, hroot, Bool.false_eq_true, if_false, bubbleUp, getNode_ok ei, hp, getNode?_ok em1, while_stop _ hcond,
      reduceCtorEq]

theorem CartState.ordered {lt : κ → κ → Bool} {os : Bool} {t : BTree κ δ} {m : κ → Option (Option δ)} {pm : κ → Option (Option Int)}
    (h : CartState lt os True t m pm) {k : κ} (hk : m k ≠ none) : HeapOrdered t := by
  cases h with
  | empty _ hm => exact absurd (hm k) hk
  | tree T ok car pr flag heap => exact ⟨T, ⟨ok.tree.root, ok.tree.linked.weaken, ok.tree.nodup⟩, heap trivial⟩

/-- One `insert` into a Cartesian tree in heap order. -/
theorem cart_again {lt : κ → κ → Bool} (ht : StrictTotal (ltRel lt)) {os : Bool} {t : BTree κ δ} {m : κ → Option (Option δ)} {pm : κ → Option (Option Int)}
    (h : CartState lt os True t m pm) (k : κ) (prio : Int) (d : Option δ) :
    ∃ t', EndsWith (fun fuel => cartInsert lt fuel t k prio d) (.ok t') ∧
      (¬ Misfit lt t k prio → CartState lt os True t' (fun k' => if k' = k then some d else m k') (fun k' => if k' = k then some (some prio) else pm k')) ∧
      (Misfit lt t k prio → ¬ HeapOrdered t') := by
  by_cases hm : m k = none
  · obtain ⟨t', h', n0, hrun⟩ := cartState_insert ht h k prio d
    have nb : ¬ Misfit lt t k prio := by
      rintro ⟨i, n, hs, _⟩
      cases h with
      | empty h _ =>
        subst h
        obtain ⟨n1, h1⟩ := hs
        have := h1 n1 (Nat.le_refl _)
        cases n1 <;> cases this
      | tree T ok car _ _ _ =>
        obtain ⟨r, e, ha⟩ := search_map ht ok.tree ok.srt car k
        rw [hm] at ha
        cases ha
        obtain ⟨n1, h1⟩ := hs
        obtain ⟨n2, h2⟩ := e
        have a := h1 (n1 + n2) (by omega)
        have b := h2 (n1 + n2) (by omega)
        dsimp only at a b
        rw [a] at b
        cases b
    refine ⟨t', ⟨n0, hrun⟩, fun _ => ?_, fun hb => absurd hb nb⟩
    cases h' with
    | empty a b => exact .empty a b
    | tree T a b c d e => exact .tree T a b c d (fun _ => e ⟨trivial, hm⟩)
  · cases h with
    | empty _ hm' => exact absurd (hm' k) hm
    | tree T ok car pr flag heap =>
      rcases bstInsert_spec ht ok k d with ⟨i, t1, hi, hk, hr, hrun⟩ | ⟨f, c, t1, rfl, habs, hI, hrun⟩
      · have ok1 := hr.bstOk ok
        have car1 := hr.carries ht ok hi hk car
        obtain ⟨n, en⟩ := Option.isSome_iff_exists.mp (linked_isSome ok.tree.linked i hi)
        have e1 : t1.at i = some { n with data := d } := by rw [hr.cells]; exact mapAt_same en
        have hnk : n.key = some k := by simpa [keyOf, en] using hk
        have hpr : ∀ j, prioOf t1.at j = prioOf t.at j := by
          intro j; unfold prioOf; rw [hr.cells]; unfold mapAt; split
          · cases t.at j <;> rfl
          · rfl
        have hs : EndsWith (fun fuel => bstSearch lt fuel t k) (.ok (some i)) := ⟨_, fun fuel hf => search_at ht ok hi hk fuel hf⟩
        have hfind : ∀ j n', EndsWith (fun fuel => bstSearch lt fuel t k) (.ok (some j)) → t.at j = some n' → j = i ∧ n' = n := by
          rintro j n' ⟨n1, h1⟩ ej
          obtain ⟨n2, h2⟩ := hs
          have a := h1 (n1 + n2) (by omega)
          have b := h2 (n1 + n2) (by omega)
          dsimp only at a b
          rw [a] at b
          cases b
          rw [en] at ej
          cases ej
          exact ⟨rfl, rfl⟩
        obtain ⟨c, A, B, rfl⟩ := plug_of_mem T i hi
        obtain ⟨n0, en0, nl, nr, np⟩ := ok.tree.node
        rw [en] at en0
        cases en0
        have hheap := heap trivial
        obtain ⟨ha, hb1, hA, hB⟩ := minHeap_plug.mp hheap
        have hfit : ¬ Misfit lt t k prio → HeapFits t1.at c A B prio n.isRoot := by
          intro hno
          have hchild : ∀ C : Shape, (n.left = C.root ∨ n.right = C.root) → MinHeap t.at C → (∀ j ∈ C.ids, (prioOf t.at j).isSome) →
              ∀ j ∈ C.ids, ∃ p, prioOf t1.at j = some p ∧ prio ≤ p := by
            intro C hC hmC hall j hj
            cases C with
            | leaf => cases hj
            | node C1 r C2 =>
              rw [root_node] at hC
              obtain ⟨p, ep⟩ := Option.isSome_iff_exists.mp (hall j hj)
              obtain ⟨q, eq⟩ := Option.isSome_iff_exists.mp (hall r (by simp [Shape.ids]))
              have hq : prio ≤ q := by
                apply Int.not_lt.mp
                intro hlt
                cases er : t.at r with
                | none => simp [prioOf, er] at eq
                | some m => exact hno ⟨i, n, hs, en, .inl ⟨r, m, q, hC, er, by simpa [prioOf, er] using eq, hlt⟩⟩
              refine ⟨p, by rw [hpr, ep], ?_⟩
              by_cases hjr : j = r
              · subst hjr; rw [ep] at eq; cases eq; exact hq
              · obtain ⟨a, b, ea, eb, hab⟩ := hmC.1 j (by
                  simp only [Shape.ids, List.mem_append, List.mem_cons] at hj ⊢
                  rcases hj with hj | hj | hj
                  · exact .inl hj
                  · exact absurd hj hjr
                  · exact .inr hj)
                rw [ea] at eq; cases eq
                rw [eb] at ep; cases ep
                omega
          have hall : ∀ j ∈ (Around.plug c (.node A i B)).ids, (prioOf t.at j).isSome := by
            intro j hj
            obtain ⟨x, _, p, ex, _, hp, _⟩ := pr j hj
            simp [prioOf, ex, hp]
          have hm1 := minHeap_plug.mp (minHeap_congr (h' := t1.at) (fun j _ => hpr j) hheap)
          refine ⟨hm1.1.mono (fun j hj => ?_), hm1.2.2.1, hm1.2.2.2, fun j hj => ?_, fun hmark => ?_⟩
          · simp only [Shape.ids, List.mem_append, List.mem_cons] at hj ⊢; rcases hj with hj | hj <;> simp [hj]
          · rcases List.mem_append.mp hj with hj | hj
            · exact hchild A (.inl nl) hA (fun j hj => hall j (by rw [Around.ids_plug]; simp [Shape.ids, hj])) j hj
            · exact hchild B (.inr nr) hB (fun j hj => hall j (by rw [Around.ids_plug]; simp [Shape.ids, hj])) j hj
          · cases c with
            | nil => exact .inl rfl
            | cons f c =>
              right
              obtain ⟨p, ep⟩ := Option.isSome_iff_exists.mp (hall f.idx (around_mem (frame_ids.mpr (.inl rfl))))
              refine ⟨f, c, p, rfl, by rw [hpr, ep], ?_⟩
              apply Int.not_lt.mp
              intro hlt
              cases er : t.at f.idx with
              | none => simp [prioOf, er] at ep
              | some m => exact hno ⟨i, n, hs, en, .inr ⟨hmark, f.idx, m, p, np, er, by simpa [prioOf, er] using ep, hlt⟩⟩
        have flag1 : RootFlag t1 := by
          obtain ⟨x, ex, hx⟩ := flag
          rw [RootFlag, hr.rootIdx, hr.cells]
          by_cases h : t.rootIdx = i
          · exact ⟨{ x with data := d }, by rw [h]; exact mapAt_same (h ▸ ex), hx⟩
          · exact ⟨x, by simp [mapAt, h, ex], hx⟩
        obtain ⟨t', h1, h2⟩ := cart_finish (os := os) (H := ¬ Misfit lt t k prio) (pm := pm) (prio := prio) ht ok1 car1 e1 hnk rfl flag1
          (by
            intro j hj hji
            obtain ⟨x, k', p, ex, a, b, c⟩ := pr j hj
            exact ⟨x, k', p, by rw [hr.cells]; simp [mapAt, hji, ex], a, b, c⟩)
          hfit
        refine ⟨t', ⟨(Around.plug c (.node A i B)).ids.length + 2, fun fuel hf => ?_⟩, fun hno => ?_, fun hmis => ?_⟩
        · exact cartInsert_eq (hrun fuel (by omega)) (search_at ht ok1 hi (by rw [hr.sameKey, hk]) fuel (by omega)) (h2 fuel (by omega))
        · cases h1 with
          | empty a b => exact .empty a b
          | tree T a b c d e => exact .tree T a b c d (fun _ => e hno)
        · obtain ⟨j0, n', hs', ej, hcase⟩ := hmis
          obtain ⟨rfl, rfl⟩ := hfind _ _ hs' ej
          have hflagged : c ≠ [] ∨ n'.isRoot = true := by
            cases c with
            | cons _ _ => exact .inl nofun
            | nil =>
              right
              obtain ⟨x, ex, hx⟩ := flag
              have hrt := ok.tree.root
              simp only [Around.plug, root_node, Option.some.injEq] at hrt
              rw [← hrt, en] at ex
              cases ex
              exact hx
          have hst : n'.isRoot = true ∨ ∃ f c' m p, c = f :: c' ∧ t1.at f.idx = some m ∧ m.prio = some p ∧ p ≤ prio := by
            rcases hcase with ⟨j, m, p, hj, ejm, ep, hlt⟩ | ⟨h, _⟩
            · rcases hflagged with hc | hc
              · right
                cases c with
                | nil => exact absurd rfl hc
                | cons f c =>
                  have hjm : j ∈ (Shape.node A j0 B).ids := by
                    rcases hj with hj | hj
                    · rw [nl] at hj; simp [Shape.ids, Shape.root_mem hj]
                    · rw [nr] at hj; simp [Shape.ids, Shape.root_mem hj]
                  obtain ⟨a, b, ea, eb, hab⟩ := ha.2.1 j (List.mem_append_right _ hjm)
                  have : b = p := by simpa [prioOf, ejm, ep] using eb.symm
                  subst this
                  rw [← hpr] at ea
                  cases er : t1.at f.idx with
                  | none => simp [prioOf, er] at ea
                  | some m' => exact ⟨f, c, m', a, rfl, er, by simpa [prioOf, er] using ea, by omega⟩
              · exact .inl hc
            · exact .inl h
          obtain ⟨t2, T2, p2, o2, hfin⟩ := cart_stays (k := k) (prio := prio) (d := d) ok1.tree e1 hst
          have : t' = t2 := by
            have a := h2 ((Around.plug c (.node A j0 B)).ids.length + 1) (by omega)
            rw [hfin _ (by omega)] at a
            exact (Except.ok.inj a).symm
          subst this
          rintro ⟨T3, hT3, hN⟩
          have : T3 = Around.plug c (.node A j0 B) := holds_unique hT3 ⟨T2.root, T2.linked.weaken, T2.nodup⟩
          subst this
          obtain ⟨g1, g2, _, _⟩ := minHeap_plug.mp hN
          rcases hcase with ⟨j, m, p, hj, ejm, ep, hlt⟩ | ⟨_, j, m, p, hj, ejm, ep, hlt⟩
          · have hjm : j ∈ A.ids ++ B.ids := by
              rcases hj with hj | hj
              · rw [nl] at hj; exact List.mem_append_left _ (Shape.root_mem hj)
              · rw [nr] at hj; exact List.mem_append_right _ (Shape.root_mem hj)
            have hji : j ≠ j0 := by
              rintro rfl
              have hnd := T2.nodup
              rw [Around.ids_plug, List.nodup_iff_count] at hnd
              have := hnd j
              have hp := List.count_pos_iff.mpr hjm
              simp only [Shape.ids, List.count_append, List.count_cons, beq_self_eq_true, if_true] at this hp
              omega
            obtain ⟨a, b, ea, eb, hab⟩ := g2 j hjm
            rw [p2] at ea
            cases ea
            rw [o2 j hji, hpr] at eb
            have : b = p := by simpa [prioOf, ejm, ep] using eb.symm
            omega
          · cases c with
            | nil => rw [np] at hj; cases hj
            | cons f c =>
              have hjf : f.idx = j := Option.some.inj (np.symm.trans hj)
              subst hjf
              have hne : f.idx ≠ j0 := fun e => T2.fresh.2.2 (by rw [← e]; exact frame_ids.mpr (.inl rfl))
              obtain ⟨a, b, ea, eb, hab⟩ := g1.2.1 j0 (List.mem_append_right _ (by simp [Shape.ids]))
              rw [p2] at eb
              cases eb
              rw [o2 _ hne, hpr] at ea
              have : a = p := by simpa [prioOf, ejm, ep] using ea.symm
              omega
      · exfalso
        cases e : m k with
        | none => exact hm e
        | some d' =>
          obtain ⟨j, hj, n, en, hn, _⟩ := (car k d').mp e
          exact habs j hj (by simp [keyOf, en, hn])

/-- The tree a history of insertions leaves. -/
def CartLeft (lt : κ → κ → Bool) (os : Bool) (ops : List (κ × Int × Option δ)) (t : BTree κ δ) : Prop :=
  EndsWith (fun n => cartInserts lt n (btEmpty os) ops) (.ok t)

theorem CartLeft.unique {lt : κ → κ → Bool} {os : Bool} {ops : List (κ × Int × Option δ)} {t t' : BTree κ δ} (h : CartLeft lt os ops t) (h' : CartLeft lt os ops t') :
    t = t' := by
  obtain ⟨n1, h1⟩ := h
  obtain ⟨n2, h2⟩ := h'
  have a := h1 (n1 + n2) (by omega)
  have b := h2 (n1 + n2) (by omega)
  dsimp only at a b
  rw [a] at b
  exact Except.ok.inj b

theorem cartLeft_snoc {lt : κ → κ → Bool} {os : Bool} {p : List (κ × Int × Option δ)} {k : κ} {prio : Int} {d : Option δ} {t t' : BTree κ δ}
    (h : CartLeft lt os p t) (h' : EndsWith (fun fuel => cartInsert lt fuel t k prio d) (.ok t')) : CartLeft lt os (p ++ [(k, prio, d)]) t' := by
  obtain ⟨n1, h1⟩ := h
  obtain ⟨n2, h2⟩ := h'
  refine ⟨n1 + n2, fun n hn => ?_⟩
  have a := h1 n (by omega)
  have b := h2 n (by omega)
  dsimp only at a b
  simp only [cartInserts] at a ⊢
  rw [List.foldlM_append, a]
  simp only [ok_bind, List.foldlM_cons, List.foldlM_nil, b]
  rfl

/-- **C80** The tree is in heap order after every call of a history if and only if no call inserts a key whose node has at that time a child of a
smaller priority than the new one, or is marked as root and has a parent of a greater priority than the new one. -/
theorem C80_exact {lt : κ → κ → Bool} (ht : StrictTotal (ltRel lt)) (os : Bool) (ops : List (κ × Int × Option δ)) :
    (∀ p, p <+: ops → p ≠ [] → ∃ t, CartLeft lt os p t ∧ HeapOrdered t) ↔
      ∀ p k prio d, p ++ [(k, prio, d)] <+: ops → ∃ t, CartLeft lt os p t ∧ ¬ Misfit lt t k prio := by
  have split : ∀ {p : List (κ × Int × Option δ)}, p ≠ [] → ∃ q k prio d, p = q ++ [(k, prio, d)] := fun {p} h =>
    ⟨p.dropLast, _, _, _, (List.dropLast_concat_getLast h).symm⟩
  have ent : ∀ (p : List (κ × Int × Option δ)) k prio d, lastData (entries (p ++ [(k, prio, d)])) = (fun k' => if k' = k then some d else lastData (entries p) k') ∧
      lastData (priorities (p ++ [(k, prio, d)])) = (fun k' => if k' = k then some (some prio) else lastData (priorities p) k') := by
    intro p k prio d
    constructor
    · rw [← lastData_snoc]; simp [entries]
    · rw [← lastData_snoc]; simp [priorities]
  constructor
  · intro h
    have key : ∀ l p, p.length = l → p <+: ops → ∃ t, CartLeft lt os p t ∧ CartState lt os True t (lastData (entries p)) (lastData (priorities p)) ∧
        ∀ k prio d, p ++ [(k, prio, d)] <+: ops → ¬ Misfit lt t k prio := by
      intro l
      induction l with
      | zero =>
        intro p hp _
        rw [List.length_eq_zero_iff] at hp
        subst hp
        refine ⟨btEmpty os, ⟨0, fun _ _ => rfl⟩, .empty rfl (fun _ => rfl), fun k prio d _ => ?_⟩
        rintro ⟨i, n, ⟨n1, h1⟩, _⟩
        have := h1 n1 (Nat.le_refl _)
        cases n1 <;> cases this
      | succ l ih =>
        intro p hp hpre
        obtain ⟨q, k, prio, d, rfl⟩ := split (p := p) (by rintro rfl; simp at hp)
        obtain ⟨t, hL, hs, hnb⟩ := ih q (by simpa using hp) ((List.prefix_append _ _).trans hpre)
        obtain ⟨t', e, h1, _⟩ := cart_again ht hs k prio d
        have hs' := h1 (hnb k prio d hpre)
        rw [← (ent q k prio d).1, ← (ent q k prio d).2] at hs'
        refine ⟨t', cartLeft_snoc hL e, hs', fun k' prio' d' hpre' hb => ?_⟩
        obtain ⟨t2, e2, _, h3⟩ := cart_again ht hs' k' prio' d'
        obtain ⟨t3, hL3, hc⟩ := h _ hpre' (by simp)
        have := hL3.unique (cartLeft_snoc (cartLeft_snoc hL e) e2)
        subst this
        exact h3 hb hc
    intro p k prio d hpre
    obtain ⟨t, hL, _, hnb⟩ := key _ p rfl ((List.prefix_append _ _).trans hpre)
    exact ⟨t, hL, hnb k prio d hpre⟩
  · intro hno
    have fwd : ∀ l p, p.length = l → p <+: ops → ∃ t, CartLeft lt os p t ∧ CartState lt os True t (lastData (entries p)) (lastData (priorities p)) := by
      intro l
      induction l with
      | zero =>
        intro p hp _
        rw [List.length_eq_zero_iff] at hp
        subst hp
        exact ⟨btEmpty os, ⟨0, fun _ _ => rfl⟩, .empty rfl (fun _ => rfl)⟩
      | succ l ih =>
        intro p hp hpre
        obtain ⟨q, k, prio, d, rfl⟩ := split (p := p) (by rintro rfl; simp at hp)
        obtain ⟨t, hL, hs⟩ := ih q (by simpa using hp) ((List.prefix_append _ _).trans hpre)
        obtain ⟨t0, hL0, hnb⟩ := hno q k prio d hpre
        rw [hL0.unique hL] at hnb
        obtain ⟨t', e, h1, _⟩ := cart_again ht hs k prio d
        refine ⟨t', cartLeft_snoc hL e, ?_⟩
        rw [(ent q k prio d).1, (ent q k prio d).2]
        exact h1 hnb
    intro p hpre hne
    obtain ⟨t, hL, hs⟩ := fwd _ p rfl hpre
    obtain ⟨q, k, prio, d, rfl⟩ := split hne
    exact ⟨t, hL, hs.ordered (k := k) (by rw [(ent q k prio d).1]; simp)⟩

/-! ## Concrete histories -/

/-- Keys 1 and 2 with the priorities 5 and 7: key 2 may be given any priority again, and then moves up if need be … -/
example (prio : Int) : ∃ t : BTree Nat Char, CartLeft (fun a b => decide (a < b)) false [(1, 5, none), (2, 7, none)] t ∧
    ¬ Misfit (fun a b => decide (a < b)) t 2 prio := by
  refine ⟨⟨[some { key := some 1, data := none, right := some 1, isRoot := true, prio := some 5 },
    some { key := some 2, data := none, parent := some 0, prio := some 7 }, none], 2, 2, 0, 2, false⟩, ⟨30, fun n hn => ?_⟩, ?_⟩
  · obtain ⟨m, rfl⟩ : ∃ m, n = m + 30 := ⟨n - 30, by omega⟩
    rfl
  · rintro ⟨i, n, ⟨n0, h1⟩, h2, h3⟩
    have := h1 (n0 + 9) (by omega)
    cases this
    cases h2
    simp at h3

/-- … key 1 no priority above 7 … -/
example : ∃ t : BTree Nat Char, CartLeft (fun a b => decide (a < b)) false [(1, 5, none), (2, 7, none)] t ∧ Misfit (fun a b => decide (a < b)) t 1 8 := by
  refine ⟨⟨[some { key := some 1, data := none, right := some 1, isRoot := true, prio := some 5 },
    some { key := some 2, data := none, parent := some 0, prio := some 7 }, none], 2, 2, 0, 2, false⟩, ⟨30, fun n hn => ?_⟩, ?_⟩
  · obtain ⟨m, rfl⟩ : ∃ m, n = m + 30 := ⟨n - 30, by omega⟩
    rfl
  · exact ⟨0, _, ⟨9, fun n hn => (by obtain ⟨m, rfl⟩ : ∃ m, n = m + 9 := ⟨n - 9, by omega⟩; rfl)⟩, rfl,
      .inl ⟨1, _, 7, .inr rfl, rfl, rfl, by decide⟩⟩

/-- … and with the priorities 5 and 3, key 1, which was the root once and still carries its mark, none below 3. -/
example : ∃ t : BTree Nat Char, CartLeft (fun a b => decide (a < b)) false [(1, 5, none), (2, 3, none)] t ∧ Misfit (fun a b => decide (a < b)) t 1 1 := by
  refine ⟨⟨[some { key := some 1, data := none, parent := some 1, isRoot := true, prio := some 5 },
    some { key := some 2, data := none, left := some 0, isRoot := true, prio := some 3 }, none], 2, 2, 1, 2, false⟩, ⟨30, fun n hn => ?_⟩, ?_⟩
  · obtain ⟨m, rfl⟩ : ∃ m, n = m + 30 := ⟨n - 30, by omega⟩
    rfl
  · exact ⟨0, _, ⟨9, fun n hn => (by obtain ⟨m, rfl⟩ : ∃ m, n = m + 9 := ⟨n - 9, by omega⟩; rfl)⟩, rfl,
      .inr ⟨rfl, 1, _, 3, rfl, rfl, rfl, by decide⟩⟩
end Props
