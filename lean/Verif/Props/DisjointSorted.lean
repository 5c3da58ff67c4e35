import Verif.Model.DisjointSorted
import Verif.Props.DisjointSet
import Verif.Props.Bst

/-! # C44: the answer of `disjoint_sets` is in a canonical order -/
namespace Props
open Py Model Spec
variable {κ : Type} [DecidableEq κ]
set_option linter.unusedSectionVars false

/-- The answer for a set of keys and a relation between them: every group in increasing order, the groups in the order of their least keys, the keys divided according to the
relation. -/
structure SortedPartition (lt : κ → κ → Bool) (keys : List κ) (rel : κ → κ → Prop) (gs : List (List κ)) : Prop where
  covers : gs.flatten.Perm keys
  nonempty : ∀ g ∈ gs, g ≠ []
  groups : ∀ g ∈ gs, g.Pairwise fun a b => lt a b = true
  order : gs.Pairwise fun g h => ∃ x y, g.head? = some x ∧ h.head? = some y ∧ lt x y = true
  classes : ∀ g ∈ gs, ∀ a ∈ g, ∀ b, b ∈ g ↔ b ∈ keys ∧ rel a b

private theorem groupLe_spec {lt : κ → κ → Bool} (ht : StrictTotal (ltRel lt)) :
    (∀ a b c, groupLe lt a b = true → groupLe lt b c = true → groupLe lt a c = true) ∧ ∀ a b, (groupLe lt a b || groupLe lt b a) = true := by
  constructor
  · intro a
    induction a with
    | nil => intro b c _ _; rfl
    | cons a as ih =>
      intro b c h1 h2
      cases b with
      | nil => cases h1
      | cons b bs =>
        cases c with
        | nil => cases h2
        | cons c cs =>
          simp only [groupLe] at h1 h2 ⊢
          by_cases e1 : a = b
          · subst e1
            rw [if_pos rfl] at h1
            by_cases e2 : a = c
            · subst e2
              rw [if_pos rfl] at h2 ⊢
              exact ih _ _ h1 h2
            · rw [if_neg e2] at h2 ⊢
              exact h2
          · rw [if_neg e1] at h1
            by_cases e2 : b = c
            · subst e2
              rw [if_neg e1]; exact h1
            · rw [if_neg e2] at h2
              have h3 := ht.trans _ _ _ h1 h2
              rw [if_neg (fun e => ht.irrefl a (by rw [e] at h3 ⊢; exact h3))]
              exact h3
  · intro a
    induction a with
    | nil => intro b; rfl
    | cons a as ih =>
      intro b
      cases b with
      | nil => rfl
      | cons b bs =>
        simp only [groupLe]
        by_cases e : a = b
        · subst e; simpa using ih bs
        · rw [if_neg e, if_neg (fun h => e h.symm)]
          rcases ht.tri a b with h | h | h
          · simp [h]
          · exact absurd h e
          · simp [h]

private theorem keyLe_spec {lt : κ → κ → Bool} (ht : StrictTotal (ltRel lt)) :
    (∀ a b c, keyLe lt a b = true → keyLe lt b c = true → keyLe lt a c = true) ∧ ∀ a b, (keyLe lt a b || keyLe lt b a) = true := by
  have hno : ∀ a b, keyLe lt a b = true ↔ ¬ lt b a = true := by intro a b; simp [keyLe]
  constructor
  · intro a b c h1 h2
    rw [hno] at *
    intro h
    rcases ht.tri a b with e | e | e
    · exact h2 (ht.trans _ _ _ h e)
    · subst e; exact h2 h
    · exact h1 e
  · intro a b
    rcases ht.tri a b with e | e | e
    · have : lt b a = false := by
        cases hb : lt b a with
        | false => rfl
        | true => exact absurd (ht.trans _ _ _ e hb) (ht.irrefl a)
      simp [keyLe, this]
    · subst e
      have : lt a a = false := by
        cases hb : lt a a with
        | false => rfl
        | true => exact absurd hb (ht.irrefl a)
      simp [keyLe, this]
    · have : lt a b = false := by
        cases hb : lt a b with
        | false => rfl
        | true => exact absurd (ht.trans _ _ _ e hb) (ht.irrefl b)
      simp [keyLe, this]

private theorem nodup_of_mem_flatten {l : List (List κ)} (h : l.flatten.Nodup) : ∀ g ∈ l, g.Nodup := by
  intro g hg
  induction l with
  | nil => cases hg
  | cons x l ih =>
    rw [List.flatten_cons, List.nodup_append] at h
    rcases List.mem_cons.1 hg with rfl | hg
    · exact h.1
    · exact ih h.2.1 hg

/-- In groups without common keys two different places hold groups without common keys. -/
private theorem flatten_disjoint {l : List (List κ)} (h : l.flatten.Nodup) : l.Pairwise fun g h => ∀ x ∈ g, x ∉ h := by
  induction l with
  | nil => exact .nil
  | cons x l ih =>
    rw [List.flatten_cons, List.nodup_append] at h
    refine .cons (fun g hg y hy hyg => h.2.2 y hy y (List.mem_flatten.2 ⟨g, hg, hyg⟩) rfl) (ih h.2.1)

/-- **C44**: `disjoint_sets` answers the sets in a canonical order: each in increasing order of its keys, the sets in increasing order of their least keys. -/
theorem C44_disjoint_sets_sorted {lt : κ → κ → Bool} (ht : StrictTotal (ltRel lt)) (ops : List (DsuOp κ)) :
    ∃ gs, dsuSets lt (dsuAfter ops) = .ok gs ∧ SortedPartition lt (partitionAfter ops).keys (Joined (partitionAfter ops).pairs) gs := by
  obtain ⟨groups, e, h1, h2, h3, h4⟩ := C44_disjoint_sets ops
  refine ⟨_, by rw [dsuSets, e]; rfl, ?_⟩
  generalize hgs : (groups.map fun g => g.mergeSort (keyLe lt)).mergeSort (groupLe lt) = gs
  have hp : gs.Perm (groups.map fun g => g.mergeSort (keyLe lt)) := by rw [← hgs]; exact List.mergeSort_perm _ _
  have hmem : ∀ g ∈ gs, ∃ g0 ∈ groups, g = g0.mergeSort (keyLe lt) ∧ g.Perm g0 := by
    intro g hg
    obtain ⟨g0, hg0, rfl⟩ := List.mem_map.1 (hp.mem_iff.1 hg)
    exact ⟨g0, hg0, rfl, List.mergeSort_perm _ _⟩
  have hflat : gs.flatten.Perm groups.flatten := by
    refine hp.flatten.trans ?_
    clear h1 h3 h4 hp hmem hgs e
    induction groups with
    | nil => exact .refl _
    | cons g l ih => simpa using (List.mergeSort_perm g (keyLe lt)).append ih
  have hnd : gs.flatten.Nodup := (hflat.trans h1).nodup_iff.2 h2
  have hne : ∀ g ∈ gs, g ≠ [] := by
    intro g hg
    obtain ⟨g0, hg0, _, hpg⟩ := hmem g hg
    intro e
    subst e
    exact h3 g0 hg0 hpg.symm.eq_nil
  refine ⟨hflat.trans h1, hne, ?_, ?_, ?_⟩
  · intro g hg
    obtain ⟨g0, hg0, rfl, hpg⟩ := hmem g hg
    have hs := List.pairwise_mergeSort (keyLe_spec ht).1 (keyLe_spec ht).2 g0
    have hn := nodup_of_mem_flatten hnd _ hg
    refine (hs.and hn).imp fun {a b} h => ?_
    rcases ht.tri a b with e | e | e
    · exact e
    · exact absurd e h.2
    · have h5 := h.1; simp [keyLe, e] at h5
  · have hs : gs.Pairwise fun a b => groupLe lt a b = true := by
      rw [← hgs]; exact List.pairwise_mergeSort (groupLe_spec ht).1 (groupLe_spec ht).2 _
    refine ((hs.and (flatten_disjoint hnd)).imp_of_mem fun {a b} ha hb h => ?_)
    cases a with
    | nil => exact absurd rfl (hne _ ha)
    | cons x a =>
      cases b with
      | nil => exact absurd rfl (hne _ hb)
      | cons y b =>
        refine ⟨x, y, rfl, rfl, ?_⟩
        have hxy : x ≠ y := fun e => h.2 x (by simp) (by simp [e])
        have h5 := h.1
        rw [groupLe, if_neg hxy] at h5
        exact h5
  · intro g hg a ha b
    obtain ⟨g0, hg0, _, hpg⟩ := hmem g hg
    rw [hpg.mem_iff]
    exact h4 g0 hg0 a (hpg.mem_iff.1 ha) b

/-- Lists in strictly increasing order with the same members are equal. -/
private theorem eq_of_ordered {β : Type} {R : β → β → Prop} (ha : ∀ a b, R a b → R b a → False) : ∀ (l m : List β), l.Pairwise R → m.Pairwise R →
    (∀ x, x ∈ l ↔ x ∈ m) → l = m := by
  intro l
  induction l with
  | nil =>
    intro m _ _ h
    cases m with
    | nil => rfl
    | cons y m => exact absurd ((h y).2 (by simp)) (by simp)
  | cons x l ih =>
    intro m hl hm h
    cases m with
    | nil => exact absurd ((h x).1 (by simp)) (by simp)
    | cons y m =>
      obtain ⟨l1, l2⟩ := List.pairwise_cons.1 hl
      obtain ⟨m1, m2⟩ := List.pairwise_cons.1 hm
      have hxy : x = y := by
        rcases List.mem_cons.1 ((h x).1 (by simp)) with e | e
        · exact e
        · rcases List.mem_cons.1 ((h y).2 (by simp)) with e' | e'
          · exact e'.symm
          · exact (ha _ _ (l1 y e') (m1 x e)).elim
      subst hxy
      rw [ih m l2 m2 fun z => ?_]
      constructor
      · intro hz
        rcases List.mem_cons.1 ((h z).1 (List.mem_cons_of_mem _ hz)) with e | e
        · subst e; exact (ha _ _ (l1 z hz) (l1 z hz)).elim
        · exact e
      · intro hz
        rcases List.mem_cons.1 ((h z).2 (List.mem_cons_of_mem _ hz)) with e | e
        · subst e; exact (ha _ _ (m1 z hz) (m1 z hz)).elim
        · exact e

/-- There is only one such answer. -/
theorem SortedPartition.unique {lt : κ → κ → Bool} (ht : StrictTotal (ltRel lt)) {keys keys' : List κ} {rel rel' : κ → κ → Prop} {gs hs : List (List κ)}
    (hk : ∀ a, a ∈ keys ↔ a ∈ keys') (hr : ∀ a ∈ keys, ∀ b ∈ keys, (rel a b ↔ rel' a b)) (h : SortedPartition lt keys rel gs)
    (h' : SortedPartition lt keys' rel' hs) : gs = hs := by
  have asym : ∀ a b : κ, lt a b = true → lt b a = true → False := fun a b h1 h2 => ht.irrefl a (ht.trans _ _ _ h1 h2)
  refine eq_of_ordered (R := fun g h => ∃ x y, g.head? = some x ∧ h.head? = some y ∧ lt x y = true) ?_ gs hs h.order h'.order fun g => ?_
  · rintro a b ⟨x, y, e1, e2, l1⟩ ⟨y', x', e3, e4, l2⟩
    rw [e1] at e4
    rw [e2] at e3
    cases e3; cases e4
    exact asym _ _ l1 l2
  · have side : ∀ {keys keys' : List κ} {rel rel' : κ → κ → Prop} {gs hs : List (List κ)}, (∀ a, a ∈ keys ↔ a ∈ keys') →
        (∀ a ∈ keys, ∀ b ∈ keys, (rel a b ↔ rel' a b)) → SortedPartition lt keys rel gs → SortedPartition lt keys' rel' hs → ∀ g ∈ gs, g ∈ hs := by
      intro keys keys' rel rel' gs hs hk hr h h' g hg
      obtain ⟨a, ha⟩ := List.exists_mem_of_ne_nil g (h.nonempty g hg)
      have hak : a ∈ keys := h.covers.mem_iff.1 (List.mem_flatten.2 ⟨g, hg, ha⟩)
      obtain ⟨g', hg', ha'⟩ := List.mem_flatten.1 (h'.covers.mem_iff.2 ((hk a).1 hak))
      have : g = g' := eq_of_ordered asym g g' (h.groups g hg) (h'.groups g' hg') fun b => by
        rw [h.classes g hg a ha b, h'.classes g' hg' a ha' b, hk b]
        constructor
        · rintro ⟨h1, h2⟩; exact ⟨h1, (hr a hak b ((hk b).2 h1)).1 h2⟩
        · rintro ⟨h1, h2⟩; exact ⟨h1, (hr a hak b ((hk b).2 h1)).2 h2⟩
      rw [this]; exact hg'
    exact ⟨side hk hr h h' g, side (fun a => (hk a).symm) (fun a ha b hb => (hr a ((hk a).2 ha) b ((hk b).2 hb)).symm) h' h g⟩

/-- **C44**: the answer depends on nothing but the keys and which of them are connected: two histories that describe the same partition get the same answer, whatever the order of
the calls and whatever roots were chosen. -/
theorem C44_canonical {lt : κ → κ → Bool} (ht : StrictTotal (ltRel lt)) (ops ops' : List (DsuOp κ))
    (hk : ∀ a, a ∈ (partitionAfter ops).keys ↔ a ∈ (partitionAfter ops').keys)
    (hr : ∀ a ∈ (partitionAfter ops).keys, ∀ b ∈ (partitionAfter ops).keys, (Joined (partitionAfter ops).pairs a b ↔ Joined (partitionAfter ops').pairs a b)) :
    dsuSets lt (dsuAfter ops) = dsuSets lt (dsuAfter ops') := by
  obtain ⟨gs, e1, h1⟩ := C44_disjoint_sets_sorted ht ops
  obtain ⟨hs, e2, h2⟩ := C44_disjoint_sets_sorted ht ops'
  rw [e1, e2, SortedPartition.unique ht hk hr h1 h2]

/-- Two histories of that kind. -/
example : dsuSets (fun a b : Nat => decide (a < b)) (dsuAfter [.make 5, .make 2, .make 9, .make 1, .union 9 2, .union 5 1, .makeRoot 2]) = .ok [[1, 5], [2, 9]] ∧
    dsuSets (fun a b : Nat => decide (a < b)) (dsuAfter [.make 1, .make 2, .make 5, .make 9, .union 1 5, .union 2 9]) = .ok [[1, 5], [2, 9]] := by
  have e1 : dsuGroups (dsuAfter [DsuOp.make 5, .make 2, .make 9, .make 1, .union 9 2, .union 5 1, .makeRoot 2]) = .ok [[5, 1], [2, 9]] := by decide +kernel
  have e2 : dsuGroups (dsuAfter [DsuOp.make 1, .make 2, .make 5, .make 9, .union 1 5, .union 2 9]) = .ok [[1, 5], [2, 9]] := by decide +kernel
  rw [dsuSets, dsuSets, e1, e2, ok_bind, ok_bind]
  constructor <;> simp [List.mergeSort, List.MergeSort.Internal.splitInTwo, List.splitAt, List.splitAt.go, List.merge, keyLe, groupLe]

end Props
