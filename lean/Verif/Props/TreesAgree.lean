import Verif.Props.RedBlack
import Verif.Props.Splay
import Verif.Props.Cartesian

/-!
# C130: the search trees are interchangeable

Whichever of the tree classes a user chooses, the same insertions give the same answers: search, bounds and the traversal.
-/
namespace Props
open Py Spec Model
set_option linter.unusedSectionVars false
variable {κ δ : Type} [DecidableEq κ]

/-- What a user sees of a tree: the data `search` leads to for each key (`none`: not found), the answers of `lower_bound` and `upper_bound`, and the
keys and data listed by the in-order traversal. -/
structure Shows (lt : κ → κ → Bool) (t : BTree κ δ) (find : κ → Option (Option δ)) (lower upper : κ → Option κ) (listing : List (κ × Option δ)) : Prop where
  search : ∀ k, ∃ r, EndsWith (fun n => bstSearch lt n t k) (.ok r) ∧ Answers t k (find k) r
  lower : ∀ k, EndsWith (fun n => bstLower lt n t k) (.ok (lower k))
  upper : ∀ k, EndsWith (fun n => bstUpper lt n t k) (.ok (upper k))
  inOrder : ∃ ns, EndsWith (fun n => treeDfs n t .ino none) (.ok ns) ∧ ns.map (fun n => (n.key, n.data)) = listing.map (fun e => (some e.1, e.2))

/-- The tree in the array is a search tree with the entries `m`. -/
structure Serving (lt : κ → κ → Bool) (t : BTree κ δ) (m : κ → Option (Option δ)) : Prop where
  intro ::
  tree : ∃ up T, TreeAt up t T ∧ Srt lt t.at T ∧ Carries t T m

theorem leastOf_unique {lt : κ → κ → Bool} (ht : StrictTotal (ltRel lt)) {P : κ → Prop} {x y : Option κ} (hx : LeastOf lt P x) (hy : LeastOf lt P y) : x = y := by
  cases x with
  | none => cases y with
    | none => rfl
    | some y => exact absurd hy.1 (hx y)
  | some x => cases y with
    | none => exact absurd hx.1 (hy x)
    | some y =>
      have h1 := hx.2 y hy.1
      have h2 := hy.2 x hx.1
      rcases ht.tri x y with h | h | h
      · simp [ltRel, h2] at h
      · rw [h]
      · simp [ltRel, h1] at h

/-- The entries of a map, sorted by key. -/
def SortedEntries (lt : κ → κ → Bool) (m : κ → Option (Option δ)) (E : List (κ × Option δ)) : Prop :=
  (E.map (·.1)).Pairwise (fun a b => lt a b = true) ∧ ∀ k d, (k, d) ∈ E ↔ m k = some d

theorem sortedEntries_unique {lt : κ → κ → Bool} (ht : StrictTotal (ltRel lt)) {m : κ → Option (Option δ)} {E E' : List (κ × Option δ)}
    (h : SortedEntries lt m E) (h' : SortedEntries lt m E') : E = E' := by
  have nd : ∀ {E : List (κ × Option δ)}, SortedEntries lt m E → E.Nodup := by
    intro E h
    have : (E.map (·.1)).Nodup := h.1.imp fun {a b} hab => by rintro rfl; exact ht.irrefl _ hab
    exact List.Pairwise.of_map (·.1) (fun a b hab => by rintro rfl; exact hab rfl) this
  refine List.Perm.eq_of_pairwise (le := fun a b => lt a.1 b.1 = true) (fun a b _ _ h1 h2 => ?_) (List.pairwise_map.mp h.1) (List.pairwise_map.mp h'.1)
    ((List.perm_ext_iff_of_nodup (nd h) (nd h')).mpr fun ⟨k, d⟩ => by rw [h.2, h'.2])
  exact absurd (ht.trans _ _ _ h1 h2) (ht.irrefl _)

theorem Serving.listing {lt : κ → κ → Bool} (ht : StrictTotal (ltRel lt)) {t : BTree κ δ} {m : κ → Option (Option δ)} (h : Serving lt t m) :
    ∃ E ns, EndsWith (fun n => treeDfs n t .ino none) (.ok ns) ∧ ns.map (fun n => (n.key, n.data)) = E.map (fun e => (some e.1, e.2)) ∧
      SortedEntries lt m E := by
  obtain ⟨up, T, h1, h2, h3⟩ := h.tree
  have hlk : Linked false t.at none T := by
    cases up with
    | true => exact h1.linked.weaken
    | false => exact h1.linked
  obtain ⟨ns, ⟨n1, h5⟩, ks, hks, hsort, _⟩ := inorder_map h1.root hlk h1.nodup h2 h3
  obtain ⟨ns', hns, n0, h4⟩ := C74_in_order (t := t) (i := t.rootIdx) ⟨h1.root, hlk, h1.nodup⟩
  have e : ns = ns' := by
    have a := h5 (max n0 n1) (by omega)
    have b := h4 (max n0 n1) (by omega)
    simp only [treeDfs, Option.getD_none, Option.getD_some] at a b
    rw [a] at b
    cases b; rfl
  subst e
  have hkey : ∀ n ∈ ns, ∃ k, n.key = some k := by
    intro n hn
    have : n.key ∈ ks.map some := hks ▸ List.mem_map.mpr ⟨n, hn, rfl⟩
    obtain ⟨k, _, hk⟩ := List.mem_map.mp this
    exact ⟨k, hk.symm⟩
  have hmap : ∀ l : List (BNode κ δ), (∀ n ∈ l, ∃ k, n.key = some k) →
      l.map (fun n => (n.key, n.data)) = (l.filterMap fun n => n.key.map fun k => (k, n.data)).map (fun e => (some e.1, e.2)) := by
    intro l
    induction l with
    | nil => intro _; rfl
    | cons n l ih =>
      intro h
      obtain ⟨k, hk⟩ := h n (by simp)
      rw [List.filterMap_cons_some (b := (k, n.data)) (by rw [hk]; rfl), List.map_cons, List.map_cons, ih fun n hn => h n (by simp [hn]), hk]
  have hE := hmap ns hkey
  refine ⟨_, ns, ⟨n1, h5⟩, hE, ?_, fun k d => ?_⟩
  · have : (ns.filterMap fun n => n.key.map fun k => (k, n.data)).map (·.1) = ks := by
      have h6 := congrArg (List.map (·.1)) hE
      rw [List.map_map, List.map_map] at h6
      have h7 : List.map some ((ns.filterMap fun n => n.key.map fun k => (k, n.data)).map (·.1)) = ks.map some := by
        rw [List.map_map]
        exact h6.symm.trans hks
      exact (List.map_inj_right (fun _ _ h => Option.some.inj h)).mp h7
    rw [this]
    exact hsort
  · rw [h3, List.mem_filterMap]
    constructor
    · rintro ⟨n, hn, hk⟩
      have hm : some n ∈ ns.map some := List.mem_map.mpr ⟨n, hn, rfl⟩
      rw [← show T.ids.map t.at = ns.map some from hns] at hm
      obtain ⟨i, hi, ei⟩ := List.mem_map.mp hm
      cases hk' : n.key with
      | none => rw [hk'] at hk; cases hk
      | some k' =>
        rw [hk'] at hk
        simp only [Option.map_some, Option.some.injEq, Prod.mk.injEq] at hk
        exact ⟨i, hi, n, ei, by rw [hk', hk.1], hk.2⟩
    · rintro ⟨i, hi, n, ei, hk, hd⟩
      have hm : some n ∈ T.ids.map t.at := List.mem_map.mpr ⟨i, hi, ei⟩
      rw [show T.ids.map t.at = ns.map some from hns] at hm
      obtain ⟨n', hn', en⟩ := List.mem_map.mp hm
      cases en
      exact ⟨n, hn', by rw [hk, hd]; rfl⟩

/-- Search trees with the same entries show the same. -/
theorem serving_shows {lt : κ → κ → Bool} (ht : StrictTotal (ltRel lt)) {m : κ → Option (Option δ)} {t0 : BTree κ δ} (h0 : Serving lt t0 m) :
    ∃ lower upper listing, ∀ t : BTree κ δ, Serving lt t m → Shows lt t m lower upper listing := by
  have hb : ∀ (upper : Bool) {t : BTree κ δ}, Serving lt t m → ∀ k, ∃ r, EndsWith (fun n => boundHelper lt t k upper n (some t.rootIdx)) (.ok r) ∧
      LeastOf lt (fun a => (m a).isSome ∧ Beyond lt upper k a) r := by
    intro upper t h k
    obtain ⟨up, T, h1, h2, h3⟩ := h.tree
    exact bound_map ht h1 h2 h3 upper k
  obtain ⟨E, _, _, _, hE⟩ := h0.listing ht
  refine ⟨fun k => (hb false h0 k).choose, fun k => (hb true h0 k).choose, E, fun t h => ⟨fun k => ?_, fun k => ?_, fun k => ?_, ?_⟩⟩
  · obtain ⟨up, T, h1, h2, h3⟩ := h.tree
    exact search_map ht h1 h2 h3 k
  · obtain ⟨r, h1, h2⟩ := hb false h k
    rw [leastOf_unique ht (hb false h0 k).choose_spec.2 h2]
    exact h1
  · obtain ⟨r, h1, h2⟩ := hb true h k
    rw [leastOf_unique ht (hb true h0 k).choose_spec.2 h2]
    exact h1
  · obtain ⟨E', ns, h1, h2, h3⟩ := h.listing ht
    exact ⟨ns, h1, by rw [h2, sortedEntries_unique ht hE h3]⟩

/-- **C130** The same insertions into a plain search tree, an AVL tree, a red-black tree and a Cartesian tree (or treap), whatever the priorities, keys
repeated or not: the four trees show the same. -/
theorem C130_trees {lt : κ → κ → Bool} (ht : StrictTotal (ltRel lt)) (os : Bool) (ops : List (κ × Int × Option δ)) (hne : ops ≠ []) :
    ∃ lower upper listing, SortedEntries lt (lastData (entries ops)) listing ∧
      (∃ t, EndsWith (fun n => bstInserts lt n (btEmpty os) (entries ops)) (.ok t) ∧ Shows lt t (lastData (entries ops)) lower upper listing) ∧
      (∃ t, EndsWith (fun n => avlInserts lt n (btEmpty os) (entries ops)) (.ok t) ∧ Shows lt t (lastData (entries ops)) lower upper listing) ∧
      (∃ t, EndsWith (fun n => rbInserts lt n (btEmpty os) (entries ops)) (.ok t) ∧ Shows lt t (lastData (entries ops)) lower upper listing) ∧
      (∃ t, EndsWith (fun n => cartInserts lt n (btEmpty os) ops) (.ok t) ∧ Shows lt t (lastData (entries ops)) lower upper listing) ∧
      (SplayFine [] (ops.map (·.1)) →
        ∃ t, EndsWith (fun n => splayInserts lt n (btEmpty os) (entries ops)) (.ok t) ∧ Shows lt t (lastData (entries ops)) lower upper listing) := by
  have hne' : entries ops ≠ [] := by simpa [entries] using hne
  have hnone : ¬ ∀ k, lastData (entries ops) k = none := fun hm => hne' (ops_none hm)
  obtain ⟨t1, s1, r1⟩ := bst_history ht os (entries ops)
  obtain ⟨t2, s2, r2⟩ := avl_history ht os (entries ops)
  obtain ⟨t3, s3, r3⟩ := rb_history ht os (entries ops)
  obtain ⟨t4, s4, r4⟩ := cart_history ht os ops
  have v1 : Serving lt t1 (lastData (entries ops)) := by
    cases s1 with
    | empty _ hm => exact absurd hm hnone
    | tree T ok car _ _ _ => exact ⟨_, T, ok.tree, ok.srt, car⟩
  have v2 : Serving lt t2 (lastData (entries ops)) := by
    cases s2 with
    | empty _ hm => exact absurd hm hnone
    | tree T ok car _ _ _ => exact ⟨_, T, ok.tree, ok.srt, car⟩
  have v3 : Serving lt t3 (lastData (entries ops)) := by
    cases s3 with
    | empty _ hm => exact absurd hm hnone
    | tree T ok car _ _ _ => exact ⟨_, T, ok.tree, ok.srt, car⟩
  have v4 : Serving lt t4 (lastData (entries ops)) := by
    cases s4 with
    | empty _ hm => exact absurd hm hnone
    | tree T ok car _ _ _ => exact ⟨_, T, ok.tree, ok.srt, car⟩
  obtain ⟨E, ns, l1, l2, l3⟩ := v1.listing ht
  obtain ⟨lower, upper, listing, h⟩ := serving_shows ht v1
  have hl : listing = E := by
    obtain ⟨ns', ⟨n1, a1⟩, a2⟩ := (h t1 v1).inOrder
    obtain ⟨n2, b1⟩ := l1
    have x := a1 (n1 + n2) (by omega)
    have y := b1 (n1 + n2) (by omega)
    dsimp only at x y
    rw [x] at y
    have hn : ns' = ns := Except.ok.inj y
    rw [hn, l2] at a2
    refine ((List.map_inj_right fun a b hab => ?_).mp a2).symm
    simp only [Prod.mk.injEq, Option.some.injEq] at hab
    exact Prod.ext hab.1 hab.2
  subst hl
  refine ⟨lower, upper, listing, l3, ⟨t1, r1, h t1 v1⟩, ⟨t2, r2, h t2 v2⟩, ⟨t3, r3, h t3 v3⟩, ⟨t4, r4, h t4 v4⟩, fun hf => ?_⟩
  obtain ⟨t5, s5, r5⟩ := splay_history ht os (entries ops) (by rw [entries, List.map_map]; exact hf)
  refine ⟨t5, r5, h t5 ?_⟩
  cases s5 with
  | empty _ hm _ => exact absurd hm hnone
  | tree A i B k ok car _ _ _ => exact ⟨_, _, ok.tree, ok.srt, car⟩

/-! ## The hypotheses are met -/

example := C130_trees (δ := Char) (lt := fun a b : Nat => decide (a < b))
  ⟨fun a => by simp [ltRel], fun a b c => by simp [ltRel]; omega, fun a b => by simp [ltRel]; omega⟩ false [(2, 5, some 'a'), (1, 9, none), (2, 0, some 'b'), (7, 7, some 'c')] (by simp)

end Props
