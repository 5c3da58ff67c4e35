import Verif.Props.SortsAgree
import Verif.Props.TreesAgree
import Verif.Props.QueuesAgree
import Verif.Props.SkipList
/-!
# C147: containers that keep their keys in order sort as the sorting functions do
-/
namespace Props
open Py Spec Model
variable {κ δ : Type} [DecidableEq κ]

/-- Each of the nine comparison sorts of a whole array turns `a` into `b`. -/
structure AllSort {α : Type} (comp : α → α → Bool) (a b : List (Option α)) : Prop where
  bubble : bubbleSort comp a 0 a.length = .ok b
  selection : selectionSort comp a 0 a.length = .ok b
  insertion : insertionSort comp a 0 a.length = .ok b
  merge : EndsWith (fun fuel => mergeSort comp fuel a 0 a.length) (.ok b)
  quick : EndsWith (fun fuel => quickSort comp fuel a 0 (a.length - 1)) (.ok b)
  heap : heapsort comp a 0 a.length = .ok b
  shell : EndsWith (fun fuel => shellSort comp fuel a 0 a.length) (.ok b)
  intro_ : ∀ maxdepth threshold : Int, EndsWith (fun fuel => introSort comp threshold fuel a 0 a.length maxdepth) (.ok b)
  cocktail : EndsWith (fun fuel => cocktailSort comp fuel a 0 a.length) (.ok b)

/-- The in-order traversal of the tree that `run` builds lists the keys `s`. -/
def ListsInOrder (run : Nat → PyM (BTree κ δ)) (s : List κ) : Prop :=
  ∃ t ns, EndsWith run (.ok t) ∧ EndsWith (fun n => treeDfs n t .ino none) (.ok ns) ∧ ns.map (fun n => n.key) = s.map some

theorem ge_order {lt : κ → κ → Bool} (ht : StrictTotal (ltRel lt)) : TotalPreorder (fun a b => lt b a = false) ∧
    NoTies (fun a b => lt b a = false) := by
  refine ⟨⟨fun a b => ?_, fun a b c h1 h2 => ?_⟩, fun a b h1 h2 => ?_⟩
  · cases h : lt b a with
    | false => exact .inl rfl
    | true =>
      right
      cases h' : lt a b with
      | false => rfl
      | true => exact absurd (ht.trans _ _ _ h h') (ht.irrefl _)
  · cases h : lt c a with
    | false => rfl
    | true =>
      rcases ht.tri a b with q | rfl | q
      · have := ht.trans _ _ _ h q
        rw [ltRel, h2] at this; cases this
      · rw [h2] at h; cases h
      · rw [ltRel, h1] at q; cases q
  · rcases ht.tri a b with q | q | q
    · rw [ltRel, h2] at q; cases q
    · exact q
    · rw [ltRel, h1] at q; cases q

private theorem sorted_perm_unique {lt : κ → κ → Bool} (ht : StrictTotal (ltRel lt)) {s s' : List κ} (h : s.Pairwise fun a b => lt b a = false)
    (h' : s'.Pairwise fun a b => lt b a = false) (hp : s.Perm s') : s = s' :=
  hp.eq_of_pairwise (le := fun a b => lt b a = false) (fun a b _ _ h1 h2 => (ge_order ht).2 a b h1 h2) h h'

private theorem splayFine_nodup : ∀ (ks seen : List κ), ks.Nodup → (∀ k ∈ ks, k ∉ seen) → SplayFine seen ks
  | [], _, _, _ => trivial
  | k :: ks, seen, hn, hd => by
    rw [List.nodup_cons] at hn
    refine ⟨.inl (hd k List.mem_cons_self), splayFine_nodup ks (k :: seen) hn.2 fun k' h' => ?_⟩
    rw [List.mem_cons]
    rintro (rfl | h)
    · exact hn.1 h'
    · exact hd k' (List.mem_cons_of_mem _ h') h

private theorem lastData_keys (ops : List (κ × Option δ)) (k : κ) : (∃ d, lastData ops k = some d) ↔ k ∈ ops.map (·.1) := by
  induction ops with
  | nil => simp [lastData]
  | cons op ops ih =>
    simp only [lastData, List.map_cons, List.mem_cons]
    rw [← ih]
    cases h : lastData ops k with
    | some d => simp
    | none =>
      by_cases hk : op.1 = k
      · simp [hk]
      · simp [hk]; exact fun h => hk h.symm

private theorem listing_keys {lt : κ → κ → Bool} (ht : StrictTotal (ltRel lt)) {ops : List (κ × Option δ)} (hn : (ops.map (·.1)).Nodup)
    {E : List (κ × Option δ)} (h : SortedEntries lt (lastData ops) E) : (E.map (·.1)).Perm (ops.map (·.1)) := by
  have hnd : (E.map (·.1)).Nodup := h.1.imp fun {a b} hab => by rintro rfl; exact ht.irrefl _ hab
  refine (List.perm_ext_iff_of_nodup hnd hn).2 fun k => ?_
  rw [← lastData_keys ops, List.mem_map]
  constructor
  · rintro ⟨⟨k', d⟩, he, rfl⟩
    exact ⟨d, (h.2 _ _).1 he⟩
  · rintro ⟨d, hd⟩
    exact ⟨(k, d), (h.2 _ _).2 hd, rfl⟩

private theorem skSpec_insert_perm (lt : κ → κ → Bool) (ins : List (κ × Option δ × (Nat → Bool))) : ∀ l : List (κ × Option δ),
    (final (skSpec lt) l (ins.map fun e => .insert e.1 e.2.1 e.2.2)).Perm (ins.map (fun e => (e.1, e.2.1)) ++ l) := by
  induction ins with
  | nil => intro l; exact .refl _
  | cons e ins ih =>
    intro l
    rw [List.map_cons, final, List.map_cons]
    refine (ih _).trans ?_
    simp only [skSpec]
    have h1 : (l.takeWhile (fun x => lt x.1 e.1) ++ (e.1, e.2.1) :: l.dropWhile (fun x => lt x.1 e.1)).Perm ((e.1, e.2.1) :: l) := by
      refine List.perm_middle.trans ?_
      rw [List.takeWhile_append_dropWhile]
    refine (List.Perm.append_left _ h1).trans ?_
    exact List.perm_middle

/-- **C147**: for different keys `ks` in any order there is one list `s` of them, in order, such that each of the nine comparison sorts turns the array of `ks` into that of `s`; the in-order traversals of a
BinarySearchTree, AVLTree, RedBlackTree, CartesianTree or Treap and SplayTree in which they are inserted, with any data and priorities, list `s`; the three priority queues into which they are
pushed give them back in the order `s`; and the lowest row of a skip list into which they are inserted, with any coins, reads `s`. -/
theorem C147_sorted {lt comp : κ → κ → Bool} (ht : StrictTotal (ltRel lt)) (hc : Compat comp fun a b => lt b a = false)
    (ops : List (κ × Int × Option δ)) (hne : ops ≠ []) (hn : (ops.map (·.1)).Nodup) (os : Bool) (coins : κ → Nat → Bool) (extra : Nat) :
    ∃ s : List κ, s.Perm (ops.map (·.1)) ∧ s.Pairwise (fun a b => lt a b = true) ∧
      AllSort comp (ops.map fun op => some op.1) (s.map some) ∧
      ListsInOrder (fun n => bstInserts lt n (btEmpty os) (entries ops)) s ∧
      ListsInOrder (fun n => avlInserts lt n (btEmpty os) (entries ops)) s ∧
      ListsInOrder (fun n => rbInserts lt n (btEmpty os) (entries ops)) s ∧
      ListsInOrder (fun n => cartInserts lt n (btEmpty os) ops) s ∧
      ListsInOrder (fun n => splayInserts lt n (btEmpty os) (entries ops)) s ∧
      (∀ outs ∈ [trace (lpqStep comp) LL.new (pushThenPop (ops.map fun op => (op.1, op.1))),
          trace (heapPqStep comp) ⟨Doda.ofSize 0, 0⟩ (pushThenPop (ops.map fun op => (op.1, op.1))),
          trace (binomialPqStep fun a b => !lt b a) [] (pushThenPop (ops.map fun op => (op.1, op.1)))],
        outs = ops.map (fun _ => .done) ++ s.map fun k => .elem (none, k)) ∧
      (let sk := final (skStep lt extra) (skNew : Skip κ δ) (ops.map fun op => .insert op.1 op.2.2 (coins op.1))
       ∃ h, sk.head = some h ∧ (skRow sk (sk.fresh + 1) (sk.next (skFoot sk sk.levels h))).map (·.1) = s) := by
  obtain ⟨ho, hties⟩ := (ge_order ht)
  obtain ⟨lower, upper, E, hE, hb, ha, hr, hcart, hsp⟩ := C130_trees ht os ops hne
  have hks : (entries ops).map (·.1) = ops.map (·.1) := by simp [entries]
  have hperm : (E.map (·.1)).Perm (ops.map (·.1)) := by
    have := listing_keys ht (by rw [hks]; exact hn) hE
    rwa [hks] at this
  have hweak : ∀ {s : List κ}, s.Pairwise (fun a b => lt a b = true) → s.Pairwise fun a b => lt b a = false := fun h => h.imp fun {a b} hab => by
    cases h : lt b a with
    | false => rfl
    | true => exact absurd (ht.trans _ _ _ hab h) (ht.irrefl _)
  have tree : ∀ (run : Nat → PyM (BTree κ δ)), (∃ t, EndsWith run (.ok t) ∧ Shows lt t (lastData (entries ops)) lower upper E) →
      ListsInOrder run (E.map (·.1)) := by
    rintro run ⟨t, e, h⟩
    obtain ⟨ns, e', h'⟩ := h.inOrder
    refine ⟨t, ns, e, e', ?_⟩
    have := congrArg (List.map Prod.fst) h'
    simpa [List.map_map, Function.comp_def] using this
  refine ⟨E.map (·.1), hperm, hE.1, ?_, tree _ hb, tree _ ha, tree _ hr, tree _ hcart, tree _ (hsp (splayFine_nodup _ _ hn (by simp))), ?_, ?_⟩
  · have hlen : 0 < (ops.map fun op => some op.1).length := by simpa [List.length_pos_iff] using hne
    obtain ⟨b, hb, c1, c2, c3, c4, c5, c6, c7, c8, c9⟩ := C127_comparison_sorts comp (fun a b => lt b a = false) ho hc hties (ops.map fun op => some op.1) 0
      ((ops.map fun op => some op.1).length - 1) (by omega) (by omega)
    have e1 : (ops.map fun op => some op.1).length - 1 + 1 = (ops.map fun op => some op.1).length := by omega
    rw [e1] at hb c1 c2 c3 c4 c6 c7 c8 c9
    have hs : SortsTo (noneLast fun a b => lt b a = false) (ops.map fun op => some op.1) ((E.map (·.1)).map some) 0 (ops.map fun op => some op.1).length := by
      refine ⟨⟨?_, fun i hi => ?_⟩, ?_⟩
      · have := hperm.map some
        rwa [List.map_map (g := some) (f := Prod.fst) (l := ops)] at this
      · have hl := hperm.length_eq
        rw [List.getElem?_eq_none (by simp at hi hl ⊢; omega), List.getElem?_eq_none (by simp at hi ⊢; omega)]
      · intro i j x y _ hij _ hx hy
        rw [List.getElem?_map] at hx hy
        obtain ⟨x', hx', rfl⟩ := Option.map_eq_some_iff.1 hx
        obtain ⟨y', hy', rfl⟩ := Option.map_eq_some_iff.1 hy
        have hw := hweak hE.1
        rw [List.pairwise_iff_getElem] at hw
        obtain ⟨g1, rfl⟩ := List.getElem?_eq_some_iff.1 hx'
        obtain ⟨g2, rfl⟩ := List.getElem?_eq_some_iff.1 hy'
        exact hw i j g1 g2 hij
    have hbs := sortsTo_unique hties hb hs
    subst hbs
    exact ⟨c1, c2, c3, c4, c5, c6, c7, c8, c9⟩
  · obtain ⟨h1, h2, h3⟩ := C131_sorts (fun a b => !lt b a) (by simpa using ho) comp comp (by simpa using hc) (by simpa using hc) (ops.map fun op => (op.1, op.1))
    have key : ∀ outs, ComesSorted (fun a b => (!lt b a) = true) (ops.map fun op => (op.1, op.1)) outs →
        outs = ops.map (fun _ => .done) ++ (E.map (·.1)).map fun k => .elem (none, k) := by
      rintro outs ⟨es', p1, p2, rfl⟩
      have hdiag : ∀ e ∈ es', e.1 = e.2 := by
        intro e he
        obtain ⟨op, _, rfl⟩ := List.mem_map.1 (p1.mem_iff.1 he)
        rfl
      have e2 : es'.map (·.1) = E.map (·.1) := by
        refine sorted_perm_unique ht (List.pairwise_map.2 (p2.imp fun {a b} h => by simpa using h)) (hweak hE.1) ?_
        refine (p1.map (·.1)).trans ?_
        rw [List.map_map]
        exact hperm.symm
      rw [← e2, List.map_map, List.map_map]
      congr 1
      refine List.map_congr_left fun e he => ?_
      simp [hdiag e he]
    intro outs ho
    simp only [List.mem_cons, List.not_mem_nil, or_false] at ho
    rcases ho with rfl | rfl | rfl
    · exact key _ h1
    · exact key _ h2
    · exact key _ h3
  · obtain ⟨h, e1, e2, e3⟩ := C43_sorted (δ := δ) (lt := lt) ht extra (ops.map fun op => .insert op.1 op.2.2 (coins op.1))
    refine ⟨h, e1, ?_⟩
    rw [e2]
    have hp := skSpec_insert_perm lt (ops.map fun op => (op.1, op.2.2, coins op.1)) ([] : List (κ × Option δ))
    rw [List.map_map, List.append_nil, List.map_map] at hp
    refine sorted_perm_unique ht (List.pairwise_map.2 e3) (hweak hE.1) ?_
    refine (hp.map (·.1)).trans ?_
    rw [List.map_map]
    exact hperm.symm

/-! The hypotheses are met: four different keys, not in order, with equal priorities among them, and a skip list whose coins depend on the key. -/

example := C147_sorted (δ := Char) (lt := fun a b : Nat => decide (a < b)) (comp := fun a b => decide (a ≤ b))
  ⟨fun a => by simp [ltRel], fun a b c => by simp [ltRel]; omega, fun a b => by simp [ltRel]; omega⟩
  ⟨fun a b => by simp, fun a b => by simp; omega⟩
  [(2, 5, some 'a'), (1, 9, none), (20, 5, some 'b'), (7, 7, some 'c')] (by simp) (by decide) false (fun k i => i < k % 3) 0

end Props
