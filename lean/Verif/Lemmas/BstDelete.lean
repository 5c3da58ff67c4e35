import Verif.Props.Lca
import Verif.Props.Avl

/-!
# Deletion from a binary search tree, as long as the array is not contracted
-/
namespace Props
open Py Model Spec
set_option linter.unusedSectionVars false
variable {κ δ : Type} [DecidableEq κ]

/-- The key and the data at a position. -/
def entryAt (h : Cells κ δ) (i : Nat) : Option (κ × Option δ) := (h i).bind fun n => n.key.map fun k => (k, n.data)

/-- The positions `L` hold the entries `E`. -/
def Ent (h : Cells κ δ) (L : List Nat) (E : List (κ × Option δ)) : Prop := L.map (entryAt h) = E.map some

theorem Ent.append_iff {h : Cells κ δ} {L1 L2 : List Nat} {E : List (κ × Option δ)} :
    Ent h (L1 ++ L2) E ↔ ∃ E1 E2, E = E1 ++ E2 ∧ Ent h L1 E1 ∧ Ent h L2 E2 := by
  unfold Ent
  rw [List.map_append]
  constructor
  · intro e
    obtain ⟨E1, E2, rfl, h1, h2⟩ := List.map_eq_append_iff.mp e.symm
    exact ⟨E1, E2, rfl, h1.symm, h2.symm⟩
  · rintro ⟨E1, E2, rfl, h1, h2⟩
    rw [List.map_append, h1, h2]

theorem Ent.cons_iff {h : Cells κ δ} {i : Nat} {L : List Nat} {E : List (κ × Option δ)} :
    Ent h (i :: L) E ↔ ∃ e E', E = e :: E' ∧ entryAt h i = some e ∧ Ent h L E' := by
  unfold Ent
  cases E with
  | nil => simp
  | cons e E =>
    simp only [List.map_cons, List.cons.injEq]
    constructor
    · rintro ⟨a, b⟩; exact ⟨e, E, ⟨rfl, rfl⟩, a, b⟩
    · rintro ⟨_, _, ⟨rfl, rfl⟩, a, b⟩; exact ⟨a, b⟩

theorem Ent.nil (h : Cells κ δ) : Ent h [] ([] : List (κ × Option δ)) := rfl

theorem Ent.congr {h h' : Cells κ δ} {L : List Nat} {E : List (κ × Option δ)} (e : ∀ i ∈ L, entryAt h' i = entryAt h i) (H : Ent h L E) : Ent h' L E := by
  unfold Ent at *
  rw [← H]
  exact List.map_congr_left e

theorem Ent.mem {h : Cells κ δ} {L : List Nat} {E : List (κ × Option δ)} (H : Ent h L E) {e : κ × Option δ} : e ∈ E ↔ ∃ i ∈ L, entryAt h i = some e := by
  have : some e ∈ L.map (entryAt h) ↔ some e ∈ E.map some := by unfold Ent at H; rw [H]
  simpa using this.symm

theorem Ent.length {h : Cells κ δ} {L : List Nat} {E : List (κ × Option δ)} (H : Ent h L E) : E.length = L.length := by
  have := congrArg List.length H; simpa using this.symm

theorem entryAt_some {h : Cells κ δ} {i : Nat} {e : κ × Option δ} : entryAt h i = some e ↔ ∃ n, h i = some n ∧ n.key = some e.1 ∧ n.data = e.2 := by
  unfold entryAt
  cases h i with
  | none => simp
  | some n =>
    cases hk : n.key with
    | none => simp [hk]
    | some k =>
      simp only [Option.bind_some, hk, Option.map_some, Option.some.injEq, exists_eq_left']
      constructor
      · rintro rfl; simp
      · rintro ⟨h1, h2⟩; exact Prod.ext h1 h2

theorem keyOf_entry {h : Cells κ δ} {i : Nat} {e : κ × Option δ} (H : entryAt h i = some e) : keyOf h i = some e.1 := by
  obtain ⟨n, en, hk, _⟩ := entryAt_some.mp H
  simp [keyOf, en, hk]

/-- The array holds the search tree `T` with the entries `E`, in order. Parent links are not required to be right. -/
structure Holding (lt : κ → κ → Bool) (t : BTree κ δ) (T : Shape) (E : List (κ × Option δ)) : Prop where
  tree : TreeAt false t T
  ent : Ent t.at T.ids E
  sorted : E.Pairwise fun a b => lt a.1 b.1 = true
  low : ∀ i, (t.at i).isSome → i < t.top
  cap : t.top ≤ t.arr.length
  num : t.num = T.ids.length
  os : t.orderStat = false

theorem Holding.srt {lt : κ → κ → Bool} {t : BTree κ δ} {T : Shape} {E : List (κ × Option δ)} (h : Holding lt t T E) : Srt lt t.at T := by
  have key : ∀ (L : List Nat) (E : List (κ × Option δ)), Ent t.at L E → E.Pairwise (fun a b => lt a.1 b.1 = true) → L.Pairwise (KLt lt t.at) := by
    intro L
    induction L with
    | nil => intros; exact .nil
    | cons i L ih =>
      intro E he hs
      obtain ⟨e, E', rfl, h1, h2⟩ := Ent.cons_iff.mp he
      rw [List.pairwise_cons] at hs ⊢
      refine ⟨fun j hj => ?_, ih E' h2 hs.2⟩
      have : entryAt t.at j ∈ L.map (entryAt t.at) := List.mem_map_of_mem hj
      rw [show L.map (entryAt t.at) = E'.map some from h2] at this
      obtain ⟨e', he', ej⟩ := List.mem_map.mp this
      exact ⟨e.1, e'.1, keyOf_entry h1, keyOf_entry ej.symm, hs.1 e' he'⟩
  refine ⟨key _ _ h.ent h.sorted, fun i hi => ?_⟩
  have : entryAt t.at i ∈ T.ids.map (entryAt t.at) := List.mem_map_of_mem hi
  rw [show T.ids.map (entryAt t.at) = E.map some from h.ent] at this
  obtain ⟨e', _, ej⟩ := List.mem_map.mp this
  rw [keyOf_entry ej.symm]; rfl

theorem Holding.carries {lt : κ → κ → Bool} {t : BTree κ δ} {T : Shape} {E : List (κ × Option δ)} (h : Holding lt t T E) {m : κ → Option (Option δ)}
    (hm : ∀ k d, m k = some d ↔ (k, d) ∈ E) : Carries t T m := by
  intro k d
  rw [hm, h.ent.mem]
  simp only [entryAt_some]

theorem Holding.lt_top {lt : κ → κ → Bool} {t : BTree κ δ} {T : Shape} {E : List (κ × Option δ)} (h : Holding lt t T E) : ∀ i ∈ T.ids, i < t.top :=
  fun i hi => h.low i (linked_isSome h.tree.linked i hi)

/-! ## The parts -/

/-- A link of the parent is turned. -/
theorem relink_spec {up : Bool} {t : BTree κ δ} {f : Frame} {c : Around} {j : Nat} {y : Option Nat}
    (hA : LinkedAround up t.at (f :: c) (some j)) (nd : (Around.plug (f :: c) .leaf).ids.Nodup) (hj : j ∉ Around.before (f :: c) ++ Around.after (f :: c)) :
    ∃ t', relink t f.idx j y = .ok t' ∧ SameRest t t' ∧ SameContent t.at t'.at ∧
      (∀ i, f.idx ≠ i → t'.at i = t.at i) ∧ LinkedAround up t'.at (f :: c) y ∧ t'.rootIdx = t.rootIdx := by
  have key : ∃ n, t.at f.idx = some n ∧
      ((∃ i r, f = .inL i r ∧ n.left = some j) ∨ (∃ l i, f = .inR l i ∧ n.right = some j ∧ n.left ≠ some j)) := by
    cases f with
    | inL i r =>
      obtain ⟨n, e1, e2, _⟩ := hA.1
      exact ⟨n, e1, .inl ⟨i, r, rfl, e2⟩⟩
    | inR l i =>
      obtain ⟨n, e1, e2, e3, _⟩ := hA.1
      refine ⟨n, e1, .inr ⟨l, i, rfl, e3, ?_⟩⟩
      rw [e2]
      intro h
      have := Shape.root_mem h
      apply hj
      simp [Around.before, this]
  obtain ⟨n, en, hcase⟩ := key
  have hsome : (t.at f.idx).isSome := by rw [en]; rfl
  rcases hcase with ⟨i, r, rfl, hl⟩ | ⟨l, i, rfl, hr, hl⟩
  · obtain ⟨t', e, ha, hr, hroot⟩ := modNode_spec (fun n => { n with left := y }) hsome
    refine ⟨t', by simpa [relink, getNode_ok en, hl] using e, hr, by
      rw [ha]; exact sameContent_mapAt (fun n => rfl), ?_, ?_, hroot⟩
    · intro x hx
      rw [ha]; simp only [mapAt]; rw [if_neg (fun e => hx e.symm)]
    · refine around_redirect nd ?_ ?_ hA
      · intro x _ hne
        simp only [linksOf, ha, mapAt]; rw [if_neg (fun e => hne e.symm)]
      · intro m hm
        rw [en] at hm; cases hm
        exact ⟨{ n with left := y }, by simp [ha, mapAt, en], rfl, rfl, rfl⟩
  · obtain ⟨t', e, ha, hr', hroot⟩ := modNode_spec (fun n => { n with right := y }) hsome
    refine ⟨t', by simpa [relink, getNode_ok en, hl] using e, hr', by
      rw [ha]; exact sameContent_mapAt (fun n => rfl), ?_, ?_, hroot⟩
    · intro x hx
      rw [ha]; simp only [mapAt]; rw [if_neg (fun e => hx e.symm)]
    · refine around_redirect nd ?_ ?_ hA
      · intro x _ hne
        simp only [linksOf, ha, mapAt]; rw [if_neg (fun e => hne e.symm)]
      · intro m hm
        rw [en] at hm; cases hm
        exact ⟨{ n with right := y }, by simp [ha, mapAt, en], rfl, rfl, rfl⟩

theorem SameContent.entry {h h' : Cells κ δ} (H : SameContent h h') (i : Nat) : entryAt h' i = entryAt h i := by
  have := H i
  unfold entryAt
  cases e : h' i <;> cases e' : h i <;> simp_all [BNode.strip]

theorem SameContent.some_iff {h h' : Cells κ δ} (H : SameContent h h') (i : Nat) : (h' i).isSome = (h i).isSome := by
  have := H i
  cases e : h' i <;> cases e' : h i <;> simp_all

/-- The counters after position `x` has been freed. -/
structure Freed (t t' : BTree κ δ) (x : Nat) : Prop where
  size : t'.size = t.size
  num : t'.num + 1 = t.num
  len : t'.arr.length = t.arr.length
  top : t'.top = if t.top = x + 1 then x else t.top

theorem atDelete_spec {t : BTree κ δ} {x : Nat} (hx : (t.at x).isSome) (hlow : x < t.top) (hn : 1 ≤ t.num) (h4 : t.arr.length ≤ 4 * (t.num - 1)) :
    ∃ t', atDelete t x = .ok (t', none) ∧ t'.at = (fun j => if j = x then none else t.at j) ∧ Freed t t' x ∧ t'.rootIdx = t.rootIdx ∧
      t'.orderStat = t.orderStat := by
  refine ⟨{ t with arr := t.arr.set x none, num := t.num - 1, top := if t.top = x + 1 then x else t.top }, ?_, ?_, ⟨rfl, by simp; omega, by simp, rfl⟩, rfl, rfl⟩
  · unfold atDelete
    rw [if_pos ⟨hlow, hx⟩]
    unfold atModify
    rw [if_neg (by simp; omega)]
  · funext j
    simp only [BTree.at, List.getElem?_set]
    by_cases hj : x = j
    · subst hj
      rw [if_pos rfl, if_pos rfl]
      split <;> rfl
    · rw [if_neg hj, if_neg (fun e => hj e.symm)]

/-- Freeing a position that is no longer part of the tree. -/
theorem holding_freed {lt : κ → κ → Bool} {t t2 : BTree κ δ} {T' : Shape} {E' : List (κ × Option δ)} {x : Nat} (hT : TreeAt false t T') (he : Ent t.at T'.ids E')
    (hs : E'.Pairwise fun a b => lt a.1 b.1 = true) (hlow : ∀ i, (t.at i).isSome → i < t.top) (hcap : t.top ≤ t.arr.length) (hnum : t.num = T'.ids.length + 1)
    (hos : t.orderStat = false) (hx : x ∉ T'.ids) (ha : t2.at = fun j => if j = x then none else t.at j) (hf : Freed t t2 x) (hr : t2.rootIdx = t.rootIdx)
    (ho : t2.orderStat = t.orderStat) : Holding lt t2 T' E' := by
  have hne : ∀ i ∈ T'.ids, t2.at i = t.at i := fun i hi => by rw [ha]; simp only; rw [if_neg (by rintro rfl; exact hx hi)]
  refine ⟨⟨by rw [hr]; exact hT.root, linked_congr (fun i hi => by simp [linksOf, hne i hi]) hT.linked, hT.nodup⟩,
    he.congr (fun i hi => by simp [entryAt, hne i hi]), hs, ?_, ?_, ?_, by rw [ho, hos]⟩
  · intro i hi
    rw [ha] at hi
    simp only at hi
    by_cases e : i = x
    · rw [if_pos e] at hi; cases hi
    · rw [if_neg e] at hi
      have := hlow i hi
      rw [hf.top]; split <;> omega
  · rw [hf.top, hf.len]; split <;> omega
  · have := hf.num; omega

theorem updateSize_off {t : BTree κ δ} (h : t.orderStat = false) (fuel : Nat) (o : Option Nat) : updateSize fuel t o = .ok t := by
  unfold updateSize; rw [h]; rfl

theorem delSlot_spec {t t2 : BTree κ δ} {x p : Nat} (h1 : (t.at p).isSome) (h2 : (t.at t.rootIdx).isSome) (h : atDelete t x = .ok (t2, none)) :
    delSlot t x p = .ok (t2, some p) := by
  obtain ⟨n, en⟩ := Option.isSome_iff_exists.mp h1
  obtain ⟨r, er⟩ := Option.isSome_iff_exists.mp h2
  simp only [delSlot, getNode_ok en, getNode_ok er, ok_bind, h]


/-- The children of a position are the same in both. -/
def SameKids (h h' : Cells κ δ) (i : Nat) : Prop := ∀ n, h i = some n → ∃ n', h' i = some n' ∧ n'.left = n.left ∧ n'.right = n.right

theorem SameKids.of_eq {h h' : Cells κ δ} {i : Nat} (e : h' i = h i) : SameKids h h' i := fun n hn => ⟨n, by rw [e, hn], rfl, rfl⟩

theorem SameKids.trans {h h' h'' : Cells κ δ} {i : Nat} (a : SameKids h h' i) (b : SameKids h' h'' i) : SameKids h h'' i := by
  intro n hn
  obtain ⟨n1, e1, l1, r1⟩ := a n hn
  obtain ⟨n2, e2, l2, r2⟩ := b n1 e1
  exact ⟨n2, e2, l2.trans l1, r2.trans r1⟩

theorem linked_kids {h h' : Cells κ δ} : ∀ {T : Shape} {p q : Option Nat}, (∀ i ∈ T.ids, SameKids h h' i) → Linked false h p T → Linked false h' q T := by
  intro T
  induction T with
  | leaf => intros; trivial
  | node l i r ih1 ih2 =>
    rintro p q e ⟨⟨n, en, n1, n2, _⟩, h1, h2⟩
    obtain ⟨n', en', m1, m2⟩ := e i (by simp [Shape.ids]) n en
    exact ⟨⟨n', en', by rw [m1, n1], by rw [m2, n2], nofun⟩, ih1 (fun j hj => e j (by simp [Shape.ids, hj])) h1, ih2 (fun j hj => e j (by simp [Shape.ids, hj])) h2⟩

theorem around_kids {h h' : Cells κ δ} : ∀ {c : Around} {x : Option Nat}, (∀ i ∈ Around.before c ++ Around.after c, SameKids h h' i) →
    LinkedAround false h c x → LinkedAround false h' c x := by
  intro c
  induction c with
  | nil => intros; trivial
  | cons f c ih =>
    intro x e H
    cases f with
    | inL i r =>
      obtain ⟨⟨n, en, n1, n2, _⟩, h1, h2⟩ := H
      obtain ⟨n', en', m1, m2⟩ := e i (by simp [Around.after]) n en
      exact ⟨⟨n', en', by rw [m1, n1], by rw [m2, n2], nofun⟩, linked_kids (fun j hj => e j (by simp [Around.after, hj])) h1,
        ih (fun j hj => e j (by simp only [List.mem_append, Around.before, Around.after, List.mem_cons, List.cons_append] at hj ⊢; rcases hj with hj | hj <;> simp [hj])) h2⟩
    | inR l i =>
      obtain ⟨⟨n, en, n1, n2, _⟩, h1, h2⟩ := H
      obtain ⟨n', en', m1, m2⟩ := e i (by simp [Around.before]) n en
      exact ⟨⟨n', en', by rw [m1, n1], by rw [m2, n2], nofun⟩, linked_kids (fun j hj => e j (by simp [Around.before, hj])) h1,
        ih (fun j hj => e j (by simp only [List.mem_append, Around.before, Around.after, List.mem_cons] at hj ⊢; rcases hj with hj | hj <;> simp [hj])) h2⟩

/-- The node `x`, which has at most the child `S`, is taken out of the tree. -/
theorem splice_tree {t t1 : BTree κ δ} {g : Frame} {C : Around} {L R S : Shape} {x : Nat} (h : TreeAt false t (Around.plug (g :: C) (.node L x R)))
    (hS : L = .leaf ∧ S = R ∨ R = .leaf ∧ S = L) (hA : LinkedAround false t1.at (g :: C) S.root) (hk : ∀ i ∈ S.ids, SameKids t.at t1.at i)
    (hr : t1.rootIdx = t.rootIdx) : TreeAt false t1 (Around.plug (g :: C) S) ∧ x ∉ (Around.plug (g :: C) S).ids := by
  have hnd := h.nodup
  have hl := ((linked_plug false t.at (g :: C) _).mp h.linked).2
  refine ⟨⟨?_, (linked_plug _ _ _ _).mpr ⟨hA, ?_⟩, ?_⟩, ?_⟩
  · rw [hr, ← h.root]; exact Around.root_plug_cons g C _ _
  · rcases hS with ⟨rfl, rfl⟩ | ⟨rfl, rfl⟩
    · exact linked_kids hk hl.2.2
    · exact linked_kids hk hl.2.1
  · rw [Around.ids_plug] at hnd ⊢
    rcases hS with ⟨rfl, rfl⟩ | ⟨rfl, rfl⟩ <;> simp only [Shape.ids] at hnd <;> grind
  · rw [Around.ids_plug] at hnd ⊢
    rcases hS with ⟨rfl, rfl⟩ | ⟨rfl, rfl⟩ <;> simp only [Shape.ids] at hnd <;> grind

/-! ## The successor -/

theorem succ_loop {t : BTree κ δ} : ∀ (S : Shape) (p : Option Nat) (q : Nat) (flag : Bool) (i : Nat), S.root = some i → Linked false t.at p S →
    ∃ cs s rs, S = Around.plug cs (.node .leaf s rs) ∧ Around.before cs = [] ∧ (∀ f ∈ cs, ∃ j r, f = Frame.inL j r) ∧
      ∀ fuel > S.depth, whileLoop fuel (succCond t) (succBody t) ⟨i, q, flag⟩ = .ok ⟨s, (Around.up cs).getD q, flag || !cs.isEmpty⟩ := by
  intro S
  induction S with
  | leaf => intro p q flag i h; cases h
  | node l j r ih1 _ =>
    intro p q flag i hi hl
    rw [root_node, Option.some.injEq] at hi
    subst hi
    obtain ⟨⟨n, en, n1, n2, _⟩, hl1, hl2⟩ := hl
    cases l with
    | leaf =>
      refine ⟨[], j, r, rfl, rfl, by simp, fun fuel hf => ?_⟩
      obtain ⟨f, rfl⟩ : ∃ f, fuel = f + 1 := ⟨fuel - 1, by omega⟩
      have q1 : n.left = none := n1
      rw [while_stop _ (by simp only [succCond, getNode_ok en, ok_bind, q1]; rfl)]
      simp [Around.up]
    | node l1 j1 r1 =>
      obtain ⟨cs, s, rs, e1, e2, e3, hrun⟩ := ih1 (some j) j true j1 rfl hl1
      refine ⟨cs ++ [.inL j r], s, rs, ?_, ?_, ?_, fun fuel hf => ?_⟩
      · rw [Around.plug_append, ← e1]; rfl
      · have : ∀ (c : Around), Around.before c = [] → Around.before (c ++ [Frame.inL j r]) = [] := by
          intro c
          induction c with
          | nil => intro _; rfl
          | cons f c ih =>
            intro h
            cases f with
            | inL a b => exact ih h
            | inR a b => simp [Around.before] at h
        exact this cs e2
      · intro f hf
        simp only [List.mem_append, List.mem_singleton] at hf
        rcases hf with hf | rfl
        · exact e3 f hf
        · exact ⟨j, r, rfl⟩
      · obtain ⟨f, rfl⟩ : ∃ f, fuel = f + 1 := ⟨fuel - 1, by omega⟩
        have q1 : n.left = some j1 := n1
        have hb : succBody t ⟨j, q, flag⟩ = .ok ⟨j1, j, true⟩ := by simp only [succBody, getNode_ok en, ok_bind, q1, asIdx]
        refine (while_step f (by simp only [succCond, getNode_ok en, ok_bind, q1]; rfl) hb).trans ?_
        rw [hrun f (by simp only [Shape.depth] at hf ⊢; omega)]
        cases cs with
        | nil => simp [Around.up, Frame.idx]
        | cons g cs => simp [Around.up]

/-! ## delete -/

theorem filter_key {lt : κ → κ → Bool} (ht : StrictTotal (ltRel lt)) {E1 E2 : List (κ × Option δ)} {e : κ × Option δ}
    (h : (E1 ++ e :: E2).Pairwise fun a b => lt a.1 b.1 = true) : (E1 ++ e :: E2).filter (fun x => x.1 ≠ e.1) = E1 ++ E2 := by
  rw [List.pairwise_append, List.pairwise_cons] at h
  rw [List.filter_append, List.filter_cons_of_neg (by simp)]
  congr 1
  · refine List.filter_eq_self.mpr fun a ha => ?_
    have := h.2.2 a ha e (by simp)
    simp only [ne_eq, decide_eq_true_eq]
    intro he
    rw [he] at this
    exact ht.irrefl _ this
  · refine List.filter_eq_self.mpr fun a ha => ?_
    have := h.2.1.1 a ha
    simp only [ne_eq, decide_eq_true_eq]
    intro he
    rw [he] at this
    exact ht.irrefl _ this

theorem sorted_drop {lt : κ → κ → Bool} {E1 E2 : List (κ × Option δ)} {e : κ × Option δ}
    (h : (E1 ++ e :: E2).Pairwise fun a b => lt a.1 b.1 = true) : (E1 ++ E2).Pairwise fun a b => lt a.1 b.1 = true :=
  h.sublist (List.Sublist.append_left (List.sublist_cons_self e E2) E1)

/-- What `delete` of a present key achieves. -/
def Removed (lt : κ → κ → Bool) (t t' : BTree κ δ) (E : List (κ × Option δ)) (k : κ) : Prop :=
  ∃ T' x, Holding lt t' T' (E.filter fun e => e.1 ≠ k) ∧ Freed t t' x

theorem delete_inner {lt : κ → κ → Bool} (ht : StrictTotal (ltRel lt)) {t : BTree κ δ} {E : List (κ × Option δ)} {g : Frame} {C : Around} {L R S : Shape} {x : Nat}
    {k : κ} (h : Holding lt t (Around.plug (g :: C) (.node L x R)) E) (hS : L = .leaf ∧ S = R ∨ R = .leaf ∧ S = L) (hk : keyOf t.at x = some k)
    (h4 : t.arr.length ≤ 4 * (t.num - 1)) :
    ∃ t1, relink t g.idx x S.root = .ok t1 ∧ SameRest t t1 ∧ SameContent t.at t1.at ∧ t1.rootIdx = t.rootIdx ∧ (∀ i ∈ (Around.plug (g :: C) (.node L x R)).ids, (t1.at i).isSome) ∧
      ∀ t1', SameRest t1 t1' → SameContent t1.at t1'.at → t1'.rootIdx = t1.rootIdx → (∀ i, SameKids t1.at t1'.at i) →
        ∃ t2, atDelete t1' x = .ok (t2, none) ∧ Removed lt t t2 E k ∧ t2.orderStat = false := by
  have hnd := h.tree.nodup
  have hlk := (linked_plug false t.at (g :: C) _).mp h.tree.linked
  have hx : x ∉ Around.before (g :: C) ++ Around.after (g :: C) := by
    rw [Around.ids_plug] at hnd; simp only [Shape.ids] at hnd; grind
  have hnd0 : (Around.plug (g :: C) .leaf).ids.Nodup := by
    rw [Around.ids_plug] at hnd ⊢; simp only [Shape.ids] at hnd ⊢; grind
  have hgS : g.idx ∉ S.ids := by
    have := (around_fresh hnd).1
    rcases hS with ⟨rfl, rfl⟩ | ⟨rfl, rfl⟩ <;> simp only [Shape.ids] at this <;> grind
  obtain ⟨t1, e1, r1, s1, o1, a1, q1⟩ := relink_spec (y := S.root) hlk.1 hnd0 hx
  refine ⟨t1, e1, r1, s1, q1, ?_, ?_⟩
  · intro i hi; rw [s1.some_iff]; exact linked_isSome h.tree.linked i hi
  intro t1' r1' s1' q1' k1'
  have hsp := splice_tree (t1 := t1') h.tree hS (around_kids (fun i _ => k1' i) a1)
    (fun i hi => (SameKids.of_eq (o1 i (by rintro rfl; exact hgS hi))).trans (k1' i)) (q1'.trans q1)
  have hsome : (t1'.at x).isSome := by
    rw [s1'.some_iff, s1.some_iff]; exact linked_isSome h.tree.linked x (by rw [Around.ids_plug]; simp [Shape.ids])
  have hnum : t.num = (Around.plug (g :: C) S).ids.length + 1 := by
    rw [h.num, Around.ids_plug, Around.ids_plug]
    rcases hS with ⟨rfl, rfl⟩ | ⟨rfl, rfl⟩ <;> simp [Shape.ids] <;> omega
  have rr := r1.trans r1'
  obtain ⟨t2, e2, a2, f2, q2, o2⟩ := atDelete_spec (t := t1') (x := x) hsome
    (by rw [rr.top]; exact h.lt_top x (by rw [Around.ids_plug]; simp [Shape.ids])) (by rw [rr.num]; omega) (by rw [rr.num, rr.len]; exact h4)
  have hent := h.ent
  rw [Around.ids_plug] at hent
  have hent' : ∃ E1 E2 e, E = E1 ++ e :: E2 ∧ entryAt t.at x = some e ∧ Ent t.at (Around.plug (g :: C) S).ids (E1 ++ E2) := by
    rcases hS with ⟨rfl, rfl⟩ | ⟨rfl, rfl⟩
    · simp only [Shape.ids, List.nil_append, List.append_assoc, List.cons_append] at hent
      obtain ⟨E1, E2, rfl, h1, h2⟩ := Ent.append_iff.mp hent
      obtain ⟨e, E3, rfl, h3, h5⟩ := Ent.cons_iff.mp h2
      exact ⟨E1, E3, e, rfl, h3, by rw [Around.ids_plug, List.append_assoc]; exact Ent.append_iff.mpr ⟨E1, E3, rfl, h1, h5⟩⟩
    · simp only [Shape.ids, List.append_assoc, List.cons_append, List.nil_append] at hent
      obtain ⟨E1, E2, rfl, h1, h2⟩ := Ent.append_iff.mp hent
      obtain ⟨E3, E4, rfl, h3, h5⟩ := Ent.append_iff.mp h2
      obtain ⟨e, E5, rfl, h6, h7⟩ := Ent.cons_iff.mp h5
      refine ⟨E1 ++ E3, E5, e, by simp, h6, ?_⟩
      rw [Around.ids_plug]
      exact Ent.append_iff.mpr ⟨E1 ++ E3, E5, rfl, Ent.append_iff.mpr ⟨E1, E3, rfl, h1, h3⟩, h7⟩
  obtain ⟨E1, E2, e, rfl, hex, hE⟩ := hent'
  have hek : e.1 = k := by have := keyOf_entry hex; rw [hk] at this; exact (Option.some.inj this).symm
  subst hek
  refine ⟨t2, e2, ⟨Around.plug (g :: C) S, x, ?_, ?_⟩, by rw [o2, rr.orderStat, h.os]⟩
  · rw [filter_key ht h.sorted]
    exact holding_freed hsp.1 (hE.congr fun i _ => by rw [s1'.entry, s1.entry]) (sorted_drop h.sorted)
      (fun i hi => by rw [rr.top]; exact h.low i (by rwa [s1'.some_iff, s1.some_iff] at hi)) (by rw [rr.top, rr.len]; exact h.cap) (by rw [rr.num]; exact hnum)
      (by rw [rr.orderStat]; exact h.os) hsp.2 a2 f2 q2 o2
  · exact ⟨by rw [f2.size, rr.size], by rw [← rr.num]; exact f2.num, by rw [f2.len, rr.len], by rw [f2.top, rr.top]⟩


theorem Holding.entries {lt : κ → κ → Bool} {t : BTree κ δ} {c : Around} {l r : Shape} {i : Nat} {E : List (κ × Option δ)} {k : κ}
    (h : Holding lt t (Around.plug c (.node l i r)) E) (hk : keyOf t.at i = some k) :
    ∃ E1 E2 d, E = E1 ++ (k, d) :: E2 ∧ entryAt t.at i = some (k, d) ∧ Ent t.at (Around.before c ++ l.ids) E1 ∧ Ent t.at (r.ids ++ Around.after c) E2 := by
  have hent := h.ent
  rw [Around.ids_plug] at hent
  simp only [Shape.ids, List.append_assoc, List.cons_append, List.nil_append] at hent
  rw [← List.append_assoc] at hent
  obtain ⟨E1, E2, rfl, h1, h2⟩ := Ent.append_iff.mp hent
  obtain ⟨e, E3, rfl, h3, h5⟩ := Ent.cons_iff.mp h2
  have : e.1 = k := by have := keyOf_entry h3; rw [hk] at this; exact (Option.some.inj this).symm
  subst this
  exact ⟨E1, E3, e.2, rfl, h3, h1, h5⟩

theorem Holding.num_eq {lt : κ → κ → Bool} {t : BTree κ δ} {T : Shape} {E : List (κ × Option δ)} (h : Holding lt t T E) : t.num = E.length := by
  rw [h.num, h.ent.length]

theorem Frame.idx_mem (g : Frame) (C : Around) (S : Shape) : g.idx ∈ (Around.plug (g :: C) S).ids := by
  rw [Around.ids_plug]
  have := Around.up_mem (c := g :: C) (i := g.idx) rfl
  simp only [List.mem_append] at this ⊢
  rcases this with h | h <;> simp [h]

theorem sameContent_parent (h : Cells κ δ) (i : Nat) (p : Option Nat) : SameContent h (mapAt h i fun n => { n with parent := p }) :=
  sameContent_mapAt (fun n => rfl)

theorem sameKids_mapAt {h : Cells κ δ} {i : Nat} {f : BNode κ δ → BNode κ δ} (hf : ∀ n, (f n).left = n.left ∧ (f n).right = n.right) (j : Nat) :
    SameKids h (mapAt h i f) j := by
  intro n hn
  unfold mapAt
  by_cases e : j = i
  · rw [if_pos e, hn]; exact ⟨f n, rfl, hf n⟩
  · rw [if_neg e]; exact ⟨n, hn, rfl, rfl⟩

/-- Deleting a node with a parent and at most one child. -/
theorem delete_leaf {lt : κ → κ → Bool} (ht : StrictTotal (ltRel lt)) {t : BTree κ δ} {E : List (κ × Option δ)} {g : Frame} {C : Around} {x : Nat}
    {k : κ} (h : Holding lt t (Around.plug (g :: C) (.node .leaf x .leaf)) E) (hk : keyOf t.at x = some k)
    (h4 : t.arr.length ≤ 4 * (t.num - 1)) : ∃ t', Removed lt t t' E k ∧ ∀ fuel, delLeaf fuel t x (some g.idx) = .ok (t', some g.idx) := by
  obtain ⟨t1, e1, r1, s1, q1, hs1, hrest⟩ := delete_inner ht h (.inl ⟨rfl, rfl⟩) hk h4
  obtain ⟨t2, e2, hR, ho⟩ := hrest t1 (SameRest.refl _) (fun i => rfl) rfl (fun i => SameKids.of_eq rfl)
  refine ⟨t2, hR, fun fuel => ?_⟩
  have e1' : relink t g.idx x none = .ok t1 := e1
  have hroot : (t1.at t1.rootIdx).isSome := by rw [q1]; exact hs1 _ (Shape.root_mem h.tree.root)
  simp only [delLeaf, e1', ok_bind, delSlot_spec (hs1 _ (Frame.idx_mem g C _)) hroot e2, updateSize_off ho]

theorem delete_one {lt : κ → κ → Bool} (ht : StrictTotal (ltRel lt)) {t : BTree κ δ} {E : List (κ × Option δ)} {g : Frame} {C : Around} {L R S : Shape} {x c : Nat}
    {k : κ} (h : Holding lt t (Around.plug (g :: C) (.node L x R)) E) (hS : L = .leaf ∧ S = R ∨ R = .leaf ∧ S = L) (hc : S.root = some c) (hk : keyOf t.at x = some k)
    (h4 : t.arr.length ≤ 4 * (t.num - 1)) : ∃ t', Removed lt t t' E k ∧ ∀ fuel, delOneInner fuel t x c g.idx = .ok (t', some g.idx) := by
  obtain ⟨t1, e1, r1, s1, q1, hs1, hrest⟩ := delete_inner ht h hS hk h4
  rw [hc] at e1
  have hcm : c ∈ (Around.plug (g :: C) (.node L x R)).ids := by
    have := Shape.root_mem hc
    rw [Around.ids_plug]
    rcases hS with ⟨rfl, rfl⟩ | ⟨rfl, rfl⟩ <;> simp [Shape.ids, this]
  obtain ⟨t1', e1', a1', r1', q1'⟩ := modNode_spec (t := t1) (i := c) (fun n => { n with parent := some g.idx }) (hs1 c hcm)
  obtain ⟨t2, e2, hR, ho⟩ := hrest t1' r1' (by rw [a1']; exact sameContent_parent _ _ _) q1'
    (fun i => by rw [a1']; refine sameKids_mapAt ?_ i; exact fun n => ⟨rfl, rfl⟩)
  refine ⟨t2, hR, fun fuel => ?_⟩
  have hs2 : ∀ i ∈ (Around.plug (g :: C) (.node L x R)).ids, (t1'.at i).isSome := fun i hi => by
    rw [a1', (sameContent_parent t1.at c (some g.idx)).some_iff]; exact hs1 i hi
  obtain ⟨p, ep⟩ := Option.isSome_iff_exists.mp (hs2 _ (Frame.idx_mem g C _))
  obtain ⟨r, er⟩ := Option.isSome_iff_exists.mp (hs2 t1'.rootIdx (by rw [q1', q1]; exact Shape.root_mem h.tree.root))
  simp only [delOneInner, e1, e1', ok_bind, getNode_ok ep, getNode_ok er, e2, updateSize_off ho]

/-- The root takes over its only child. -/
theorem delete_root_one {lt : κ → κ → Bool} (ht : StrictTotal (ltRel lt)) {t : BTree κ δ} {E : List (κ × Option δ)} {A B L R : Shape} {s x : Nat}
    {k : κ} (h : Holding lt t (.node L x R) E) (hS : L = .leaf ∧ .node A s B = R ∨ R = .leaf ∧ .node A s B = L) (hk : keyOf t.at x = some k)
    (h4 : t.arr.length ≤ 4 * (t.num - 1)) : ∃ t', Removed lt t t' E k ∧ delOneRoot t s = .ok (t', none) := by
  have hnd := h.tree.nodup
  have hrt : x = t.rootIdx := by have := h.tree.root; rw [root_node] at this; exact Option.some.inj this
  have hl := h.tree.linked
  have hxm : x ∈ (Shape.node L x R).ids := by simp [Shape.ids]
  have hsm : s ∈ (Shape.node L x R).ids := by rcases hS with ⟨rfl, rfl⟩ | ⟨rfl, rfl⟩ <;> simp [Shape.ids] <;> omega
  have hxs : x ∉ A.ids ++ s :: B.ids := by
    rcases hS with ⟨rfl, rfl⟩ | ⟨rfl, rfl⟩ <;> simp only [Shape.ids] at hnd <;> grind
  have hndS : (A.ids ++ s :: B.ids).Nodup := by
    rcases hS with ⟨rfl, rfl⟩ | ⟨rfl, rfl⟩ <;> simp only [Shape.ids] at hnd <;> grind
  have hlS : ∃ n, t.at s = some n ∧ n.left = A.root ∧ n.right = B.root ∧ Linked false t.at (some s) A ∧ Linked false t.at (some s) B := by
    rcases hS with ⟨rfl, rfl⟩ | ⟨rfl, rfl⟩
    · obtain ⟨_, _, ⟨n, en, n1, n2, _⟩, a, b⟩ := hl
      exact ⟨n, en, n1, n2, a, b⟩
    · obtain ⟨_, ⟨⟨n, en, n1, n2, _⟩, a, b⟩, _⟩ := hl
      exact ⟨n, en, n1, n2, a, b⟩
  obtain ⟨c, ec, c1, c2, lA, lB⟩ := hlS
  obtain ⟨nx, enx⟩ := Option.isSome_iff_exists.mp (linked_isSome hl x hxm)
  obtain ⟨t1, e1, a1, r1, q1⟩ := modNode_spec (t := t) (i := t.rootIdx)
    (fun n => { n with left := c.left, right := c.right, data := c.data, key := c.key, parent := none }) (by rw [← hrt, enx]; rfl)
  have hsx : s ≠ x := by rintro rfl; exact hxs (by simp)
  have hat : ∀ i, i ≠ x → t1.at i = t.at i := fun i hi => by rw [a1]; unfold mapAt; rw [if_neg (by rw [← hrt]; exact hi)]
  have hatx : t1.at x = some { nx with left := c.left, right := c.right, data := c.data, key := c.key, parent := none } := by
    rw [a1]; unfold mapAt; rw [if_pos hrt, enx]; rfl
  have hnum : t.num = (Shape.node A x B).ids.length + 1 := by
    rw [h.num]; rcases hS with ⟨rfl, rfl⟩ | ⟨rfl, rfl⟩ <;> simp [Shape.ids] <;> omega
  obtain ⟨t2, e2, a2, f2, q2, o2⟩ := atDelete_spec (t := t1) (x := s) (by rw [hat s hsx, ec]; rfl) (by rw [r1.top]; exact h.lt_top s hsm)
    (by rw [r1.num]; omega) (by rw [r1.num, r1.len]; exact h4)
  have hsome : ∀ i, (t1.at i).isSome → (t.at i).isSome := fun i hi => by
    by_cases e : i = x
    · rw [e, enx]; rfl
    · rwa [hat i e] at hi
  -- the entries
  have hE : ∃ E1 E2 d, E = E1 ++ (k, d) :: E2 ∧ Ent t.at (A.ids ++ s :: B.ids) (E1 ++ E2) := by
    obtain ⟨E1, E2, d, rfl, _, h1, h2⟩ := h.entries (c := []) hk
    refine ⟨E1, E2, d, rfl, ?_⟩
    rcases hS with ⟨rfl, rfl⟩ | ⟨rfl, rfl⟩
    · have : E1 = [] := by have := h1.length; simpa [Around.before, Shape.ids] using this
      subst this
      simpa [Around.after, Shape.ids] using h2
    · have : E2 = [] := by have := h2.length; simpa [Around.after, Shape.ids] using this
      subst this
      simpa [Around.before, Shape.ids] using h1
  obtain ⟨E1, E2, d, rfl, hent⟩ := hE
  refine ⟨t2, ⟨.node A x B, s, ?_, ?_⟩, ?_⟩
  · rw [filter_key ht h.sorted]
    refine holding_freed (t := t1) ⟨?_, ⟨⟨_, hatx, by exact c1, by exact c2, nofun⟩, ?_, ?_⟩, ?_⟩ ?_ (sorted_drop h.sorted)
      (fun i hi => by rw [r1.top]; exact h.low i (hsome i hi)) (by rw [r1.top, r1.len]; exact h.cap) (by rw [r1.num]; exact hnum)
      (by rw [r1.orderStat]; exact h.os) ?_ a2 f2 q2 o2
    · rw [root_node, q1, hrt]
    · exact linked_kids (fun i hi => SameKids.of_eq (hat i (by rintro rfl; exact hxs (by simp [hi])))) lA
    · exact linked_kids (fun i hi => SameKids.of_eq (hat i (by rintro rfl; exact hxs (by simp [hi])))) lB
    · simp only [Shape.ids]; grind
    · simp only [Shape.ids]
      obtain ⟨F1, F2, hF, g1, g2⟩ := Ent.append_iff.mp hent
      obtain ⟨e, F3, rfl, g3, g4⟩ := Ent.cons_iff.mp g2
      rw [hF]
      refine Ent.append_iff.mpr ⟨F1, _, rfl, g1.congr fun i hi => ?_, Ent.cons_iff.mpr ⟨e, F3, rfl, ?_, g4.congr fun i hi => ?_⟩⟩
      · unfold entryAt; rw [hat i (by rintro rfl; exact hxs (by simp [hi]))]
      · unfold entryAt at g3 ⊢; rw [hatx]; rw [ec] at g3; exact g3
      · unfold entryAt; rw [hat i (by rintro rfl; exact hxs (by simp [hi]))]
    · simp only [Shape.ids]; grind
  · exact ⟨by rw [f2.size, r1.size], by rw [← r1.num]; exact f2.num, by rw [f2.len, r1.len], by rw [f2.top, r1.top]⟩
  · simp only [delOneRoot, getNode_ok ec, e1, ok_bind, e2]

/-- The link of a frame is turned. -/
def turned (f : Frame) (y : Option Nat) (n : BNode κ δ) : BNode κ δ :=
  match f with
  | .inL _ _ => { n with left := y }
  | .inR _ _ => { n with right := y }

theorem turnTo_spec {t : BTree κ δ} {f : Frame} {c : Around} {x y : Option Nat}
    (hA : LinkedAround false t.at (f :: c) x) (nd : (Around.plug (f :: c) .leaf).ids.Nodup) (hs : (t.at f.idx).isSome) :
    ∃ t', modNode t f.idx (turned f y) = .ok t' ∧ SameRest t t' ∧ SameContent t.at t'.at ∧
      (∀ i, f.idx ≠ i → t'.at i = t.at i) ∧ LinkedAround false t'.at (f :: c) y ∧ t'.rootIdx = t.rootIdx := by
  obtain ⟨n, en⟩ := Option.isSome_iff_exists.mp hs
  obtain ⟨t', e, ha, hr, hroot⟩ := modNode_spec (turned f y) hs
  refine ⟨t', e, hr, by rw [ha]; exact sameContent_mapAt (fun n => by cases f <;> rfl), ?_, ?_, hroot⟩
  · intro x hx
    rw [ha]; simp only [mapAt]; rw [if_neg (fun e => hx e.symm)]
  · refine around_redirect nd ?_ ?_ hA
    · intro x _ hne
      simp only [linksOf, ha, mapAt]; rw [if_neg (fun e => hne e.symm)]
    · intro m hm
      rw [en] at hm; cases hm
      refine ⟨turned f y n, by simp [ha, mapAt, en], ?_⟩
      cases f <;> exact ⟨rfl, rfl, rfl⟩

theorem delete_two {lt : κ → κ → Bool} (ht : StrictTotal (ltRel lt)) {t : BTree κ δ} {E : List (κ × Option δ)} {c : Around} {l r : Shape} {i ri : Nat}
    {k : κ} (h : Holding lt t (Around.plug c (.node l i r)) E) (hr : r.root = some ri) (hk : keyOf t.at i = some k)
    (h4 : t.arr.length ≤ 4 * (t.num - 1)) :
    ∃ t' p, Removed lt t t' E k ∧ ∀ fuel > r.depth, delTwo fuel t i = .ok (t', some p) := by
  have hl := ((linked_plug false t.at c _).mp h.tree.linked).2
  obtain ⟨⟨n, en, n1, n2, _⟩, _, hlr⟩ := hl
  obtain ⟨cs, s, rs, er, hb, hcs, hrun⟩ := succ_loop r (some i) i false ri hr hlr
  obtain ⟨E1, E2, d, rfl, hei, hE1, hE2⟩ := h.entries hk
  subst er
  rw [Around.ids_plug, hb] at hE2
  simp only [Shape.ids, List.nil_append, List.cons_append, List.append_assoc] at hE2
  obtain ⟨es, E3, rfl, hes, hE3⟩ := Ent.cons_iff.mp hE2
  -- the frames around the successor
  obtain ⟨g, C, hgC⟩ : ∃ g C, cs ++ Frame.inR l i :: c = g :: C := by cases cs <;> simp
  have hplug : ∀ S, Around.plug (g :: C) S = Around.plug c (.node l i (Around.plug cs S)) := by
    intro S; rw [← hgC, Around.plug_append]; rfl
  have hT : TreeAt false t (Around.plug (g :: C) (.node .leaf s rs)) := by rw [hplug]; exact h.tree
  have hids : ∀ S : Shape, (Around.plug (g :: C) S).ids = (Around.before c ++ l.ids) ++ i :: (S.ids ++ (Around.after cs ++ Around.after c)) := by
    intro S; rw [hplug, Around.ids_plug, Shape.ids, Around.ids_plug, hb]; simp
  have hnd := hT.nodup
  rw [hids] at hnd
  simp only [Shape.ids] at hnd
  have hlk := (linked_plug false t.at (g :: C) _).mp hT.linked
  have hsom : ∀ j ∈ (Around.plug (g :: C) (.node .leaf s rs)).ids, (t.at j).isSome := fun j hj => linked_isSome hT.linked j hj
  obtain ⟨m, em, m1, m2, _⟩ : ∃ m, t.at s = some m ∧ m.left = none ∧ m.right = rs.root ∧ True := by
    obtain ⟨⟨m, em, m1, m2, _⟩, _⟩ := hlk.2
    exact ⟨m, em, m1, m2, trivial⟩
  obtain ⟨nd1, nd2, dj⟩ := List.nodup_append.mp hnd
  obtain ⟨nd3, nd4⟩ := List.nodup_cons.mp nd2
  have hi1 : ∀ j ∈ Around.before c ++ l.ids, j ≠ i := fun j hj => dj j hj i (by simp)
  have hi2 : ∀ j ∈ rs.ids ++ (Around.after cs ++ Around.after c), j ≠ i := by
    rintro j hj rfl
    apply nd3
    simp only [List.nil_append, List.cons_append, List.mem_cons]
    exact .inr hj
  have hndl : ((Around.before c ++ l.ids) ++ i :: (Around.after cs ++ Around.after c)).Nodup := by
    refine hnd.sublist (List.Sublist.append_left (List.Sublist.cons_cons i ?_) _)
    exact List.sublist_append_right _ _
  -- key and data move up
  obtain ⟨t1, e1, a1, r1, q1⟩ := modNode_spec (t := t) (i := i) (fun n => { n with data := m.data, key := m.key }) (by rw [en]; rfl)
  have k1 : ∀ j, SameKids t.at t1.at j := fun j => by rw [a1]; refine sameKids_mapAt ?_ j; exact fun n => ⟨rfl, rfl⟩
  have som1 : ∀ j, (t1.at j).isSome = (t.at j).isSome := fun j => by
    rw [a1]; unfold mapAt; by_cases e : j = i
    · rw [if_pos e]; simp
    · rw [if_neg e]
  have ent1 : ∀ j, j ≠ i → entryAt t1.at j = entryAt t.at j := fun j hj => by unfold entryAt; rw [a1]; unfold mapAt; rw [if_neg hj]
  have ent1i : entryAt t1.at i = some es := by
    unfold entryAt at hes ⊢
    rw [a1]; unfold mapAt; rw [if_pos rfl, en]
    rw [em] at hes
    exact hes
  -- the link to the successor is turned
  have hg : (t1.at g.idx).isSome := by rw [som1]; exact hsom _ (Frame.idx_mem g C _)
  obtain ⟨t2, e2, r2, s2, o2, a2, q2⟩ := turnTo_spec (t := t1) (y := rs.root) (around_kids (fun j _ => k1 j) hlk.1)
    (by rw [hids]; exact hndl) hg
  obtain ⟨t3, e3, a3, r3, q3⟩ := modIf_spec (t := t2) (o := m.right) (fun n => { n with parent := some g.idx }) (by
    intro j hj
    rw [s2.some_iff, som1]
    rw [m2] at hj
    exact hsom j (by rw [hids]; simp [Shape.ids, Shape.root_mem hj]))
  have s3 : SameContent t2.at t3.at := by
    rw [a3]
    intro j
    unfold mapAt?
    split
    · cases t2.at j <;> rfl
    · rfl
  have k3 : ∀ j, SameKids t2.at t3.at j := by
    intro j n hn
    rw [a3]
    unfold mapAt?
    split
    · rw [hn]; exact ⟨_, rfl, rfl, rfl⟩
    · exact ⟨n, hn, rfl, rfl⟩
  have hgrs : g.idx ∉ rs.ids := by
    have h1 := (around_fresh hT.nodup).1
    simp only [Shape.ids] at h1; grind
  have hsp := splice_tree (t1 := t3) hT (.inl ⟨rfl, rfl⟩) (around_kids (fun j _ => k3 j) a2)
    (fun j hj => ((k1 j).trans (SameKids.of_eq (o2 j (by rintro rfl; exact hgrs hj)))).trans (k3 j)) (q3.trans (q2.trans q1))
  have som3 : ∀ j, (t3.at j).isSome = (t.at j).isSome := fun j => by rw [s3.some_iff, s2.some_iff, som1]
  have ent3 : ∀ j, entryAt t3.at j = entryAt t1.at j := fun j => by rw [s3.entry, s2.entry]
  have rr := (r1.trans r2).trans r3
  have hnum : t.num = (Around.plug (g :: C) rs).ids.length + 1 := by
    rw [h.num, ← hplug, hids, hids]; simp [Shape.ids]; omega
  obtain ⟨t4, e4, a4, f4, q4, o4⟩ := atDelete_spec (t := t3) (x := s) (by rw [som3, em]; rfl)
    (by rw [rr.top]; exact h.low s (by rw [em]; rfl)) (by rw [rr.num]; omega) (by rw [rr.num, rr.len]; exact h4)
  have hsort : (E1 ++ es :: E3).Pairwise fun a b => lt a.1 b.1 = true := sorted_drop h.sorted
  refine ⟨t4, g.idx, ⟨Around.plug (g :: C) rs, s, ?_, ?_⟩, fun fuel hf => ?_⟩
  · rw [filter_key ht h.sorted]
    refine holding_freed hsp.1 ?_ hsort (fun j hj => by rw [rr.top]; exact h.low j (by rwa [som3] at hj)) (by rw [rr.top, rr.len]; exact h.cap)
      (by rw [rr.num]; exact hnum) (by rw [rr.orderStat]; exact h.os) hsp.2 a4 f4 q4 o4
    rw [hids]
    refine Ent.append_iff.mpr ⟨E1, es :: E3, rfl, hE1.congr fun j hj => ?_, Ent.cons_iff.mpr ⟨es, E3, rfl, ?_, hE3.congr fun j hj => ?_⟩⟩
    · rw [ent3, ent1 j (hi1 j hj)]
    · rw [ent3, ent1i]
    · rw [ent3, ent1 j (hi2 j hj)]
  · exact ⟨by rw [f4.size, rr.size], by rw [← rr.num]; exact f4.num, by rw [f4.len, rr.len], by rw [f4.top, rr.top]⟩
  · have hloop := hrun fuel hf
    have hds := delSlot_spec (p := g.idx) (by rw [som3]; exact hsom _ (Frame.idx_mem g C _))
      (by rw [som3, q3, q2, q1]; exact hsom _ (Shape.root_mem hT.root)) e4
    have ho4 : t4.orderStat = false := by rw [o4, rr.orderStat, h.os]
    have hri : n.right = some ri := by rw [n2, hr]
    simp only [delTwo, getNode_ok en, hri, asIdx, ok_bind, hloop, getNode_ok em, e1]
    cases cs with
    | nil =>
      simp only [List.nil_append, List.cons.injEq] at hgC
      obtain ⟨rfl, rfl⟩ := hgC
      have e2' : modNode t1 i (fun n => { n with right := m.right }) = .ok t2 := by rw [m2]; exact e2
      have e3' : modIf t2 m.right (fun n => { n with parent := some i }) = .ok t3 := e3
      have hds' : delSlot t3 s i = .ok (t4, some i) := hds
      simp only [Around.up, Option.getD_none, List.isEmpty_nil, Bool.not_true, Bool.or_false, Bool.false_eq_true, if_false, e2', ok_bind, e3', hds', updateSize_off ho4]
      rfl
    | cons f cs =>
      simp only [List.cons_append, List.cons.injEq] at hgC
      obtain ⟨rfl, rfl⟩ := hgC
      obtain ⟨j, r', rfl⟩ := hcs f (by simp)
      have e2' : modNode t1 j (fun n => { n with left := m.right }) = .ok t2 := by rw [m2]; exact e2
      have e3' : modIf t2 m.right (fun n => { n with parent := some j }) = .ok t3 := e3
      have hds' : delSlot t3 s j = .ok (t4, some j) := hds
      simp only [Around.up, Frame.idx, Option.getD_some, List.isEmpty_cons, Bool.not_false, Bool.or_true, if_true, e2', ok_bind, e3', hds', updateSize_off ho4]

/-- The tree after its last key has been deleted; also the tree before the first insertion. -/
structure Cleared (t : BTree κ δ) : Prop where
  root : ∃ n, t.at t.rootIdx = some n ∧ n.key = none ∧ n.left = none ∧ n.right = none
  low : ∀ i, (t.at i).isSome → i < t.top
  cap : t.top ≤ t.arr.length
  num : t.num = 1
  os : t.orderStat = false

theorem Cleared.empty : Cleared (btEmpty false : BTree κ δ) := by
  refine ⟨⟨_, rfl, rfl, rfl, rfl⟩, ?_, by simp [btEmpty], rfl, rfl⟩
  intro i hi
  cases i with
  | zero => simp [btEmpty]
  | succ i => simp [btEmpty, BTree.at] at hi

theorem delete_root_leaf {lt : κ → κ → Bool} {t : BTree κ δ} {E : List (κ × Option δ)} {x : Nat} (h : Holding lt t (.node .leaf x .leaf) E) :
    ∃ t', Cleared t' ∧ SameRest t t' ∧ ∀ fuel, delLeaf fuel t x none = .ok (t', none) := by
  have hrt : x = t.rootIdx := by have := h.tree.root; rw [root_node] at this; exact Option.some.inj this
  subst hrt
  obtain ⟨⟨n, en, n1, n2, _⟩, _⟩ := h.tree.linked
  obtain ⟨t1, e1, a1, r1, q1⟩ := modNode_spec (t := t) (i := t.rootIdx) (fun n => { n with data := none, key := none }) (by rw [en]; rfl)
  refine ⟨t1, ⟨⟨{ n with data := none, key := none }, ?_, rfl, n1, n2⟩, ?_, by rw [r1.top, r1.len]; exact h.cap, ?_, by rw [r1.orderStat]; exact h.os⟩, r1, fun fuel => ?_⟩
  · rw [a1, q1]; simp [mapAt, en]
  · intro i hi
    rw [r1.top]
    apply h.low
    rw [a1] at hi
    simp only [mapAt] at hi
    split at hi
    · simpa using hi
    · exact hi
  · rw [r1.num, h.num]; rfl
  · have ho : t1.orderStat = false := by rw [r1.orderStat, h.os]
    simp only [delLeaf, e1, ok_bind, updateSize_off ho]

/-- `delete` of a key that is present. -/
theorem bstDelete_present {lt : κ → κ → Bool} (ht : StrictTotal (ltRel lt)) {t : BTree κ δ} {T : Shape} {E : List (κ × Option δ)} {k : κ} {d : Option δ}
    (h : Holding lt t T E) (hk : (k, d) ∈ E) (h4 : E.length = 1 ∨ t.arr.length ≤ 4 * (E.length - 1)) :
    ∃ t', (E.length = 1 ∧ Cleared t' ∧ SameRest t t' ∨ 2 ≤ E.length ∧ Removed lt t t' E k) ∧ ∃ n0, ∀ fuel, n0 ≤ fuel → bstDelete lt fuel t k = .ok (t', true) := by
  obtain ⟨c, S, rfl, hF, hrun⟩ := searchP_spec ht h.tree h.srt k
  rw [← h.num_eq] at h4 ⊢
  rcases hF.here with rfl | ⟨l, i, r, rfl, hki⟩
  · obtain ⟨i, hi, ei⟩ := h.ent.mem.mp hk
    exact absurd (keyOf_entry ei) (hF.absent ht i hi)
  have hl := ((linked_plug false t.at c _).mp h.tree.linked).2
  obtain ⟨⟨n, en, n1, n2, _⟩, _, _⟩ := hl
  have hsz := h.num
  rw [Around.ids_plug] at hsz
  simp only [Shape.ids, List.length_append, List.length_cons, List.length_nil] at hsz
  have fin : ∀ {t' : BTree κ δ} {o : Option Nat} {m : Nat} {Q : Prop}, Q →
      (∀ fuel, m ≤ fuel → delCases fuel t i (Around.up c) n = .ok (t', o)) →
      Q ∧ ∃ n0, ∀ fuel, n0 ≤ fuel → bstDelete lt fuel t k = .ok (t', true) := by
    intro t' o m Q hQ hm
    refine ⟨hQ, m + ((Around.plug c (.node l i r)).depth + 2), fun fuel hf => ?_⟩
    have h1 := hrun fuel (by omega)
    rw [root_node] at h1
    have h2 := hm fuel (by omega)
    simp only [bstDelete, bstDeleteInfo, h1, ok_bind, getNode_ok en, h2]
  cases l with
  | leaf =>
    have n1' : n.left = none := n1
    cases r with
    | leaf =>
      have n2' : n.right = none := n2
      cases c with
      | nil =>
        obtain ⟨t', hc, hr, hd⟩ := delete_root_leaf h
        refine ⟨t', fin (o := none) (m := 0) (.inl ⟨by rw [hsz]; rfl, hc, hr⟩) fun fuel _ => ?_⟩
        simp only [delCases, n1', n2']; exact hd fuel
      | cons g C =>
        have hlen : 2 ≤ t.num := by
          have := Around.up_mem (c := g :: C) (i := g.idx) rfl
          have := List.length_pos_of_mem this
          simp only [List.length_append, Shape.ids, List.length_nil] at this hsz; omega
        obtain ⟨t', hR, hd⟩ := delete_leaf ht h hki (by omega)
        refine ⟨t', fin (o := some g.idx) (m := 0) (.inr ⟨hlen, hR⟩) fun fuel _ => ?_⟩
        simp only [delCases, n1', n2']; exact hd fuel
    | node A s B =>
      have n2' : n.right = some s := n2
      have hlen : 2 ≤ t.num := by simp only [Shape.ids, List.length_append, List.length_cons, List.length_nil] at hsz; omega
      cases c with
      | nil =>
        obtain ⟨t', hR, hd⟩ := delete_root_one ht h (.inl ⟨rfl, rfl⟩) hki (by omega)
        refine ⟨t', fin (o := none) (m := 0) (.inr ⟨hlen, hR⟩) fun fuel _ => ?_⟩
        simp only [delCases, n1', n2', Around.up]; exact hd
      | cons g C =>
        obtain ⟨t', hR, hd⟩ := delete_one ht h (.inl ⟨rfl, rfl⟩) (root_node A s B) hki (by omega)
        refine ⟨t', fin (o := some g.idx) (m := 0) (.inr ⟨hlen, hR⟩) fun fuel _ => ?_⟩
        simp only [delCases, n1', n2', Around.up]; exact hd fuel
  | node A s B =>
    have n1' : n.left = some s := n1
    have hlen : 2 ≤ t.num := by simp only [Shape.ids, List.length_append, List.length_cons, List.length_nil] at hsz; omega
    cases r with
    | leaf =>
      have n2' : n.right = none := n2
      cases c with
      | nil =>
        obtain ⟨t', hR, hd⟩ := delete_root_one ht h (.inr ⟨rfl, rfl⟩) hki (by omega)
        refine ⟨t', fin (o := none) (m := 0) (.inr ⟨hlen, hR⟩) fun fuel _ => ?_⟩
        simp only [delCases, n1', n2', Around.up]; exact hd
      | cons g C =>
        obtain ⟨t', hR, hd⟩ := delete_one ht h (.inr ⟨rfl, rfl⟩) (root_node A s B) hki (by omega)
        refine ⟨t', fin (o := some g.idx) (m := 0) (.inr ⟨hlen, hR⟩) fun fuel _ => ?_⟩
        simp only [delCases, n1', n2', Around.up]; exact hd fuel
    | node A' s' B' =>
      have n2' : n.right = some s' := n2
      obtain ⟨t', p, hR, hd⟩ := delete_two ht h (root_node A' s' B') hki (by omega)
      refine ⟨t', fin (o := some p) (m := (Shape.node A' s' B').depth + 1) (.inr ⟨hlen, hR⟩) fun fuel hf => ?_⟩
      simp only [delCases, n1', n2']; exact hd fuel (by omega)

/-- `delete` of a key that is absent. -/
theorem bstDelete_absent {lt : κ → κ → Bool} (ht : StrictTotal (ltRel lt)) {t : BTree κ δ} {T : Shape} {E : List (κ × Option δ)} {k : κ}
    (h : Holding lt t T E) (hk : ∀ d, (k, d) ∉ E) : ∃ n0, ∀ fuel, n0 ≤ fuel → bstDelete lt fuel t k = .ok (t, false) := by
  obtain ⟨c, S, rfl, hF, hrun⟩ := searchP_spec ht h.tree h.srt k
  rcases hF.here with rfl | ⟨l, i, r, rfl, hki⟩
  · refine ⟨(Around.plug c .leaf).depth + 2, fun fuel hf => ?_⟩
    have h1 : bstSearchP lt fuel t k = .ok (some (none, Around.up c)) := hrun fuel (by omega)
    simp only [bstDelete, bstDeleteInfo, h1, ok_bind]
  · obtain ⟨E1, E2, d, rfl, _⟩ := h.entries hki
    exact absurd (by simp) (hk d)

/-! ## insert -/

theorem ent_hung {h h' : Cells κ δ} {L1 L2 : List Nat} {i : Nat} {E1 E2 : List (κ × Option δ)} {e : κ × Option δ} (h1 : Ent h L1 E1) (h2 : Ent h L2 E2)
    (c1 : ∀ j ∈ L1 ++ L2, entryAt h' j = entryAt h j) (c2 : entryAt h' i = some e) : Ent h' (L1 ++ i :: L2) (E1 ++ e :: E2) :=
  Ent.append_iff.mpr ⟨E1, _, rfl, h1.congr fun j hj => c1 j (by simp [hj]), Ent.cons_iff.mpr ⟨e, E2, rfl, c2, h2.congr fun j hj => c1 j (by simp [hj])⟩⟩

theorem bstInsert_present {lt : κ → κ → Bool} (ht : StrictTotal (ltRel lt)) {t : BTree κ δ} {T : Shape} {E : List (κ × Option δ)} {k : κ} {d0 : Option δ}
    (h : Holding lt t T E) (hk : (k, d0) ∈ E) (d : Option δ) :
    ∃ t' E', Holding lt t' T E' ∧ E'.Perm ((k, d) :: E.filter fun e => e.1 ≠ k) ∧ SameRest t t' ∧ ∃ n0, ∀ fuel, n0 ≤ fuel → bstInsert lt fuel t k d = .ok t' := by
  obtain ⟨c, S, rfl, hF, hrun⟩ := search_spec ht h.tree h.srt k
  rcases hF.here with rfl | ⟨l, i, r, rfl, hki⟩
  · obtain ⟨i, hi, ei⟩ := h.ent.mem.mp hk
    exact absurd (keyOf_entry ei) (hF.absent ht i hi)
  obtain ⟨E1, E2, d1, rfl, hei, hE1, hE2⟩ := h.entries hki
  have hnd := h.tree.nodup
  rw [Around.ids_plug] at hnd
  simp only [Shape.ids] at hnd
  have him : i ∈ (Around.plug c (.node l i r)).ids := by rw [Around.ids_plug]; simp [Shape.ids]
  obtain ⟨t', e, ha, hr, hq⟩ := modNode_spec (t := t) (i := i) (fun n => { n with data := d }) (linked_isSome h.tree.linked i him)
  have hent : ∀ j, j ≠ i → entryAt t'.at j = entryAt t.at j := fun j hj => by unfold entryAt; rw [ha]; unfold mapAt; rw [if_neg hj]
  refine ⟨t', E1 ++ (k, d) :: E2, ⟨⟨by rw [hq]; exact h.tree.root, linked_kids (fun j _ => ?_) h.tree.linked, h.tree.nodup⟩, ?_, ?_, ?_,
    by rw [hr.top, hr.len]; exact h.cap, by rw [hr.num]; exact h.num, by rw [hr.orderStat]; exact h.os⟩, ?_, hr, (Around.plug c (.node l i r)).depth + 2, fun fuel hf => ?_⟩
  · rw [ha]; refine sameKids_mapAt ?_ j; exact fun n => ⟨rfl, rfl⟩
  · rw [Around.ids_plug]
    simp only [Shape.ids, List.append_assoc, List.cons_append, List.nil_append]
    rw [← List.append_assoc]
    refine ent_hung hE1 hE2 (fun j hj => hent j ?_) ?_
    · rintro rfl; grind
    · obtain ⟨n, en, hn1, _⟩ := entryAt_some.mp hei
      refine entryAt_some.mpr ⟨{ n with data := d }, ?_, hn1, rfl⟩
      rw [ha]; simp [mapAt, en]
  · have := h.sorted
    rw [List.pairwise_append, List.pairwise_cons] at this ⊢
    refine ⟨this.1, ⟨this.2.1.1, this.2.1.2⟩, fun a ha b hb => ?_⟩
    simp only [List.mem_cons] at hb
    rcases hb with rfl | hb
    · exact this.2.2 a ha (k, d1) (by simp)
    · exact this.2.2 a ha b (by simp [hb])
  · intro j hj
    rw [hr.top]
    apply h.low
    rw [ha] at hj
    simp only [mapAt] at hj
    split at hj
    · simpa using hj
    · exact hj
  · rw [filter_key (e := (k, d1)) ht h.sorted]; exact List.perm_middle
  · have h1 := hrun fuel (by omega)
    rw [root_node] at h1
    simp only [bstInsert, h1, ok_bind]; exact e

theorem bstInsert_cleared {lt : κ → κ → Bool} {t : BTree κ δ} (h : Cleared t) (k : κ) (d : Option δ) :
    ∃ t' T', Holding lt t' T' [(k, d)] ∧ SameRest t t' ∧ ∀ fuel, bstInsert lt fuel t k d = .ok t' := by
  obtain ⟨n, en, hk, h1, h2⟩ := h.root
  obtain ⟨t', e, ha, hr, hq⟩ := modNode_spec (t := t) (i := t.rootIdx) (fun n => { n with key := some k, data := d }) (by rw [en]; rfl)
  have hat : t'.at t.rootIdx = some { n with key := some k, data := d } := by rw [ha]; simp [mapAt, en]
  refine ⟨t', .node .leaf t.rootIdx .leaf, ⟨⟨by rw [root_node, hq], ⟨⟨_, hat, h1, h2, nofun⟩, trivial, trivial⟩, by simp [Shape.ids]⟩, ?_, by simp, ?_,
    by rw [hr.top, hr.len]; exact h.cap, by rw [hr.num, h.num]; rfl, by rw [hr.orderStat]; exact h.os⟩, hr, fun fuel => ?_⟩
  · show Ent t'.at [t.rootIdx] [(k, d)]
    exact Ent.cons_iff.mpr ⟨_, _, rfl, entryAt_some.mpr ⟨_, hat, rfl, rfl⟩, Ent.nil _⟩
  · intro j hj
    rw [hr.top]
    apply h.low
    rw [ha] at hj
    simp only [mapAt] at hj
    split at hj
    · simpa using hj
    · exact hj
  · have hs : bstSearch lt fuel t k = .ok none := by simp only [bstSearch, bstSearchP, getNode_ok en, hk, ok_bind]; rfl
    simp only [bstInsert, hs, ok_bind, bstInsertNew, getNode_ok en, hk, if_true]
    exact e

theorem bstInsert_hung {lt : κ → κ → Bool} (ht : StrictTotal (ltRel lt)) {t : BTree κ δ} {T : Shape} {E : List (κ × Option δ)} {k : κ}
    (h : Holding lt t T E) (hk : ∀ d, (k, d) ∉ E) (d : Option δ) (hsz : t.size = t.top) (hg : grown t ≤ 4 * (t.num + 1)) :
    ∃ f c t' E1 E2, T = Around.plug (f :: c) .leaf ∧ E = E1 ++ E2 ∧ Holding lt t' (Around.plug (f :: c) (.node .leaf t.top .leaf)) (E1 ++ (k, d) :: E2) ∧
      Hung t t' f { key := some k, data := d, parent := some f.idx } ∧ ∃ n0, ∀ fuel, n0 ≤ fuel → bstInsert lt fuel t k d = .ok t' := by
  have habs : ∀ i ∈ T.ids, keyOf t.at i ≠ some k := by
    intro i hi e
    obtain ⟨c, l, r, rfl⟩ := plug_of_mem _ _ hi
    obtain ⟨E1, E2, d1, rfl, _⟩ := h.entries e
    exact hk d1 (by simp)
  have hT : T ≠ .leaf := by rintro rfl; have := h.tree.root; cases this
  obtain ⟨f, c, t', hplug, hfit, hH, hrun⟩ := insert_loop ht (d := d) h.cap hg hsz h.low T [] hT h.tree.linked h.srt
    ⟨by simp [Around.before], by simp [Around.after]⟩ habs
  have hplug' : Around.plug (f :: c) .leaf = T := hplug
  subst hplug'
  have htree := hung_tree h.tree h.lt_top hH
  have hent := h.ent
  rw [Around.ids_plug] at hent
  simp only [Shape.ids, List.append_nil] at hent
  obtain ⟨E1, E2, rfl, hE1, hE2⟩ := Ent.append_iff.mp hent
  have hcont : ∀ j, j ≠ t.top → entryAt t'.at j = entryAt t.at j := by
    intro j hj
    unfold entryAt
    rw [hH.cells]
    by_cases e : j = f.idx
    · subst e
      simp only [hung, mapAt, if_neg hj, if_true]
      cases t.at f.idx with
      | none => rfl
      | some n => cases f <;> rfl
    · simp [hung, mapAt, if_neg hj, if_neg e]
  have htop : entryAt t'.at t.top = some (k, d) := by
    have hft : t.top ≠ f.idx := fun e => absurd (h.lt_top f.idx (Frame.idx_mem f c _)) (by omega)
    refine entryAt_some.mpr ⟨{ key := some k, data := d, parent := some f.idx }, ?_, rfl, rfl⟩
    rw [hH.cells]; simp [hung, mapAt, hft]
  have hlt1 : ∀ e ∈ E1, lt e.1 k = true := by
    intro e he
    obtain ⟨i, hi, ei⟩ := hE1.mem.mp he
    obtain ⟨a, ha, hlt⟩ := hfit.1 i hi
    rw [keyOf_entry ei] at ha; cases ha; exact hlt
  have hlt2 : ∀ e ∈ E2, lt k e.1 = true := by
    intro e he
    obtain ⟨i, hi, ei⟩ := hE2.mem.mp he
    obtain ⟨a, ha, hlt⟩ := hfit.2 i hi
    rw [keyOf_entry ei] at ha; cases ha; exact hlt
  refine ⟨f, c, t', E1, E2, rfl, rfl, ⟨htree, ?_, ?_, ?_, ?_, ?_, by rw [hH.orderStat, h.os]⟩, hH, ?_⟩
  · rw [Around.ids_plug]
    simp only [Shape.ids, List.append_assoc, List.cons_append, List.nil_append]
    refine ent_hung hE1 hE2 (fun j hj => hcont j (Nat.ne_of_lt (h.lt_top j ?_))) htop
    rw [Around.ids_plug]; simpa [Shape.ids] using hj
  · have := List.pairwise_append.mp h.sorted
    refine List.pairwise_append.mpr ⟨this.1, List.pairwise_cons.mpr ⟨hlt2, this.2.1⟩, fun a ha b hb => ?_⟩
    simp only [List.mem_cons] at hb
    rcases hb with rfl | hb
    · exact hlt1 a ha
    · exact this.2.2 a ha b hb
  · intro i hi
    rw [hH.top]
    by_cases e : i = t.top
    · omega
    · rw [hH.cells] at hi
      have : (t.at i).isSome := by
        by_cases e' : i = f.idx
        · subst e'; exact linked_isSome h.tree.linked _ (Frame.idx_mem f c _)
        · simpa [hung, mapAt, if_neg e, if_neg e'] using hi
      have := h.low i this; omega
  · rw [hH.top, hH.len]; have := h.cap; unfold grown; split <;> omega
  · have := h.num
    rw [Around.ids_plug] at this ⊢
    rw [hH.num, this]
    simp [Shape.ids]; omega
  · obtain ⟨c', S', e', hF, hrs⟩ := search_spec ht h.tree h.srt k
    have hS : S' = .leaf := by
      rcases hF.here with rfl | ⟨l, i, r, rfl, hki⟩
      · rfl
      · exact absurd hki (habs i (by rw [← e', Around.ids_plug]; simp [Shape.ids]))
    subst hS
    refine ⟨(Around.plug (f :: c) .leaf).depth + 2, fun fuel hf => ?_⟩
    have h1 : bstSearch lt fuel t k = .ok none := hrs fuel (by omega)
    have h2 := hrun fuel (by omega)
    obtain ⟨nr, a, enr, ea⟩ := root_key h.tree h.srt
    have hne : nr.key ≠ none := by rw [ea]; simp
    have ho : t'.orderStat = false := by rw [hH.orderStat, h.os]
    have h2' : whileLoop fuel insertCond (insertBody lt k d) ⟨t, some t.rootIdx, some t.rootIdx, true⟩ = .ok ⟨t', some t.top, some t.top, false⟩ := by
      rw [← h.tree.root]; exact h2
    simp only [bstInsert, h1, ok_bind, bstInsertNew, getNode_ok enr, if_neg hne, h2', updateSize_off ho]

theorem bstInsert_absent {lt : κ → κ → Bool} (ht : StrictTotal (ltRel lt)) {t : BTree κ δ} {T : Shape} {E : List (κ × Option δ)} {k : κ}
    (h : Holding lt t T E) (hk : ∀ d, (k, d) ∉ E) (d : Option δ) (hsz : t.size = t.top) (hg : grown t ≤ 4 * (t.num + 1)) :
    ∃ t' T' E', Holding lt t' T' E' ∧ E'.Perm ((k, d) :: E) ∧ t'.top = t.top + 1 ∧ t'.size = t.size + 1 ∧ t'.num = t.num + 1 ∧ t'.arr.length = grown t ∧
      ∃ n0, ∀ fuel, n0 ≤ fuel → bstInsert lt fuel t k d = .ok t' := by
  obtain ⟨f, c, t', E1, E2, rfl, rfl, hh, hH, hrun⟩ := bstInsert_hung ht h hk d hsz hg
  exact ⟨t', _, _, hh, List.perm_middle, hH.top, hH.size, hH.num, hH.len, hrun⟩

end Props
