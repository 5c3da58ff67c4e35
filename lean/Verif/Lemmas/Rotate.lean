import Verif.Lemmas.BTree

/-!
# Rotations of array-stored trees
-/
namespace Props
open Py Model
set_option linter.unusedSectionVars false
variable {κ δ : Type}

/-- Everything but the cells and the root is the same. -/
structure SameRest (t t' : BTree κ δ) : Prop where
  num : t'.num = t.num
  top : t'.top = t.top
  size : t'.size = t.size
  orderStat : t'.orderStat = t.orderStat
  len : t'.arr.length = t.arr.length

theorem SameRest.refl (t : BTree κ δ) : SameRest t t := ⟨rfl, rfl, rfl, rfl, rfl⟩

theorem SameRest.trans {a b c : BTree κ δ} (h : SameRest a b) (h' : SameRest b c) : SameRest a c :=
  ⟨h'.num.trans h.num, h'.top.trans h.top, h'.size.trans h.size, h'.orderStat.trans h.orderStat, h'.len.trans h.len⟩

/-- Apply `f` to the cell `i`. -/
def mapAt (h : Cells κ δ) (i : Nat) (f : BNode κ δ → BNode κ δ) : Cells κ δ := fun j => if j = i then (h j).map f else h j

/-- Apply `f` to the cell `o`, if any. -/
def mapAt? (h : Cells κ δ) (o : Option Nat) (f : BNode κ δ → BNode κ δ) : Cells κ δ :=
  fun j => if o = some j then (h j).map f else h j

theorem modNode_spec {t : BTree κ δ} {i : Nat} (f : BNode κ δ → BNode κ δ) (h : (t.at i).isSome) :
    ∃ t', modNode t i f = .ok t' ∧ t'.at = mapAt t.at i f ∧ SameRest t t' ∧ t'.rootIdx = t.rootIdx := by
  obtain ⟨n, e⟩ := Option.isSome_iff_exists.mp h
  refine ⟨_, modNode_ok f e, ?_, ⟨rfl, rfl, rfl, rfl, by simp [BTree.upd]⟩, rfl⟩
  rw [upd_at e]
  funext j
  by_cases hj : j = i
  · subst hj; simp [mapAt, e]
  · simp [mapAt, hj]

theorem modIf_spec {t : BTree κ δ} {o : Option Nat} (f : BNode κ δ → BNode κ δ) (h : ∀ i, o = some i → (t.at i).isSome) :
    ∃ t', modIf t o f = .ok t' ∧ t'.at = mapAt? t.at o f ∧ SameRest t t' ∧
      t'.rootIdx = t.rootIdx := by
  cases o with
  | none => exact ⟨t, rfl, by funext j; simp [mapAt?], SameRest.refl t, rfl⟩
  | some i =>
    obtain ⟨t', e, ha, hr, hq⟩ := modNode_spec f (h i rfl)
    exact ⟨t', e, by rw [ha]; funext j; simp only [mapAt, mapAt?, Option.some.injEq, eq_comm], hr, hq⟩

/-- The array holds the tree `T`, with parent links if `up`. -/
structure TreeAt (up : Bool) (t : BTree κ δ) (T : Shape) : Prop where
  root : T.root = some t.rootIdx
  linked : Linked up t.at none T
  nodup : T.ids.Nodup

/-- A node without its links. -/
def _root_.Model.BNode.strip (n : BNode κ δ) : BNode κ δ := { n with left := none, right := none, parent := none }

/-- All cells agree up to links. -/
def SameContent (h h' : Cells κ δ) : Prop := ∀ i, (h' i).map BNode.strip = (h i).map BNode.strip

theorem SameContent.refl (h : Cells κ δ) : SameContent h h := fun _ => rfl

theorem SameContent.trans {a b c : Cells κ δ} (h : SameContent a b) (h' : SameContent b c) : SameContent a c :=
  fun i => (h' i).trans (h i)

theorem sameContent_mapAt {h : Cells κ δ} {i : Nat} {f : BNode κ δ → BNode κ δ} (hf : ∀ n, (f n).strip = n.strip) :
    SameContent h (mapAt h i f) := by
  intro j
  unfold mapAt
  by_cases hj : j = i
  · simp only [hj, if_true, Option.map_map]
    congr 1
    funext n; exact hf n
  · rw [if_neg hj]

theorem sameContent_mapAt? {h : Cells κ δ} {o : Option Nat} {f : BNode κ δ → BNode κ δ} (hf : ∀ n, (f n).strip = n.strip) :
    SameContent h (mapAt? h o f) := by
  intro j
  unfold mapAt?
  by_cases hj : o = some j
  · simp only [hj, if_true, Option.map_map]
    congr 1
    funext n; exact hf n
  · rw [if_neg hj]

theorem linked_isSome {up : Bool} {h : Cells κ δ} : ∀ {T : Shape} {p : Option Nat}, Linked up h p T → ∀ i ∈ T.ids, (h i).isSome := by
  intro T
  induction T with
  | leaf => intro p _ i hi; simp [Shape.ids] at hi
  | node l j r ih1 ih2 =>
    intro p H i hi
    simp only [Shape.ids, List.mem_append, List.mem_cons] at hi
    rcases hi with hi | rfl | hi
    · exact ih1 H.2.1 i hi
    · obtain ⟨n, e, _⟩ := H.1
      rw [e]; rfl
    · exact ih2 H.2.2 i hi

/-- `hoist`: the link into the hole turns from `j` to `k`. -/
theorem hoist_spec {t : BTree κ δ} {c : Around} {j k : Nat}
    (hA : LinkedAround true t.at c (some j)) (nd : (Around.plug c .leaf).ids.Nodup) (hj : j ∉ Around.before c ++ Around.after c) :
    ∃ t', hoist t (Around.up c) j k = .ok t' ∧ SameRest t t' ∧ SameContent t.at t'.at ∧
      (∀ i, Around.up c ≠ some i → t'.at i = t.at i) ∧ LinkedAround true t'.at c (some k) ∧
      (t'.rootIdx = if c = [] then k else t.rootIdx) := by
  cases c with
  | nil => exact ⟨_, rfl, ⟨rfl, rfl, rfl, rfl, rfl⟩, SameContent.refl _, fun i _ => rfl, trivial, rfl⟩
  | cons f c =>
    have key : ∃ n, t.at f.idx = some n ∧
        ((∃ i r, f = .inL i r ∧ n.left = some j) ∨ (∃ l i, f = .inR l i ∧ n.right = some j ∧ n.left ≠ some j)) := by
      cases f with
      | inL i r =>
        obtain ⟨n, e1, e2, _⟩ := hA.1
        exact ⟨n, e1, .inl ⟨i, r, rfl, e2⟩⟩
      | inR l i =>
        obtain ⟨n, e1, e2, e3, _⟩ := hA.1
        refine ⟨n, e1, .inr ⟨l, i, rfl, e3, ?_⟩⟩
        rw [e2]
        intro h
        have := Shape.root_mem h
        apply hj
        simp [Around.before, this]
    obtain ⟨n, en, hcase⟩ := key
    have hsome : (t.at f.idx).isSome := by rw [en]; rfl
    rcases hcase with ⟨i, r, rfl, hl⟩ | ⟨l, i, rfl, hr, hl⟩
    · obtain ⟨t', e, ha, hr, hroot⟩ := modNode_spec (fun n => { n with left := some k }) hsome
      refine ⟨t', by simpa [hoist, Around.up, relink, getNode_ok en, hl] using e, hr, by
        rw [ha]; exact sameContent_mapAt (fun n => rfl), ?_, ?_, by simp [hroot]⟩
      · intro x hx
        rw [ha]; simp only [mapAt]; rw [if_neg]; rintro rfl; exact hx rfl
      · refine around_redirect nd ?_ ?_ hA
        · intro x _ hne
          simp only [linksOf, ha, mapAt]; rw [if_neg (fun e => hne e.symm)]
        · intro m hm
          rw [en] at hm; cases hm
          exact ⟨{ n with left := some k }, by simp [ha, mapAt, en], rfl, rfl, rfl⟩
    · obtain ⟨t', e, ha, hr', hroot⟩ := modNode_spec (fun n => { n with right := some k }) hsome
      refine ⟨t', by simpa [hoist, Around.up, relink, getNode_ok en, hl] using e, hr', by
        rw [ha]; exact sameContent_mapAt (fun n => rfl), ?_, ?_, by simp [hroot]⟩
      · intro x hx
        rw [ha]; simp only [mapAt]; rw [if_neg]; rintro rfl; exact hx rfl
      · refine around_redirect nd ?_ ?_ hA
        · intro x _ hne
          simp only [linksOf, ha, mapAt]; rw [if_neg (fun e => hne e.symm)]
        · intro m hm
          rw [en] at hm; cases hm
          exact ⟨{ n with right := some k }, by simp [ha, mapAt, en], rfl, rfl, rfl⟩

theorem rightRotate_spec {t : BTree κ δ} {c : Around} {A B C : Shape} {j k : Nat}
    (h : TreeAt true t (Around.plug c (.node (.node A k B) j C))) :
    ∃ t', rightRotate t j k = .ok t' ∧ TreeAt true t' (Around.plug c (.node A k (.node B j C))) ∧ SameRest t t' ∧
      SameContent t.at t'.at := by
  obtain ⟨hroot, hl, hnd⟩ := h
  rw [linked_plug] at hl
  obtain ⟨hA, ⟨nj, ej, j1, j2, j3⟩, ⟨⟨nk, ek, k1, k2, k3⟩, lA, lB⟩, lC⟩ := hl
  replace hA : LinkedAround true t.at c (some j) := hA
  rw [Around.ids_plug] at hnd
  simp only [Shape.ids] at hnd
  have hjc : j ∉ Around.before c ++ Around.after c := by grind
  have hkc : k ∉ Around.before c ++ Around.after c := by grind
  have hjk : j ≠ k := by grind
  have hBc : ∀ y ∈ B.ids, y ∉ Around.before c ++ Around.after c ∧ y ≠ j ∧ y ≠ k := by grind
  have hAc : ∀ y ∈ A.ids, y ∉ Around.before c ++ Around.after c ∧ y ≠ j ∧ y ≠ k ∧ y ∉ B.ids := by grind
  have hCc : ∀ y ∈ C.ids, y ∉ Around.before c ++ Around.after c ∧ y ≠ j ∧ y ≠ k ∧ y ∉ B.ids := by grind
  have ndB : B.ids.Nodup := by grind
  have ndc : (Around.plug c .leaf).ids.Nodup := by rw [Around.ids_plug]; simp only [Shape.ids]; grind
  obtain ⟨t1, e1, a1, r1, q1⟩ := modIf_spec (t := t) (o := B.root) (fun n => { n with parent := some j })
    (fun i hi => linked_isSome lB i (Shape.root_mem hi))
  have a1' : ∀ i, t1.at i = if B.root = some i then (t.at i).map (fun n => { n with parent := some j }) else t.at i := by
    intro i; rw [a1]; rfl
  have hBj : B.root ≠ some j := fun e => (hBc j (Shape.root_mem e)).2.1 rfl
  have hBk : B.root ≠ some k := fun e => (hBc k (Shape.root_mem e)).2.2 rfl
  have e1j : t1.at j = some nj := by rw [a1', if_neg hBj, ej]
  obtain ⟨t2, e2, a2, r2, q2⟩ := modNode_spec (t := t1) (i := j) (fun n => { n with left := B.root }) (by rw [e1j]; rfl)
  have e2j : t2.at j = some { nj with left := B.root } := by rw [a2]; simp [mapAt, e1j]
  have e2k : t2.at k = some nk := by rw [a2]; simp [mapAt, hjk.symm, a1', hBk, ek]
  obtain ⟨t3, e3, a3, r3, q3⟩ := modNode_spec (t := t2) (i := k) (fun n => { n with parent := nj.parent }) (by rw [e2k]; rfl)
  have hA3 : LinkedAround true t3.at c (some j) := by
    refine around_congr ?_ hA
    intro i hi
    have : B.root ≠ some i := fun e => (hBc i (Shape.root_mem e)).1 hi
    simp only [linksOf, a3, a2, mapAt, a1']
    rw [if_neg (by rintro rfl; exact hkc hi), if_neg (by rintro rfl; exact hjc hi), if_neg this]
  obtain ⟨t4, e4, r4, s4, a4, hA4, q4⟩ := hoist_spec (k := k) hA3 ndc hjc
  have hup : ∀ i, i ∉ Around.before c ++ Around.after c → t4.at i = t3.at i :=
    fun i hi => a4 i (fun e => hi (Around.up_mem e))
  have e4j : t4.at j = some { nj with left := B.root } := by rw [hup j hjc, a3]; simp [mapAt, hjk, e2j]
  obtain ⟨t5, e5, a5, r5, q5⟩ := modNode_spec (t := t4) (i := j) (fun n => { n with parent := some k }) (by rw [e4j]; rfl)
  have e5k : t5.at k = some { nk with parent := nj.parent } := by
    rw [a5]; simp [mapAt, hjk.symm, hup k hkc, a3, e2k]
  obtain ⟨t6, e6, a6, r6, q6⟩ := modNode_spec (t := t5) (i := k) (fun n => { n with right := some j }) (by rw [e5k]; rfl)
  have same : ∀ i, i ∉ Around.before c ++ Around.after c → i ≠ j → i ≠ k → B.root ≠ some i → t6.at i = t.at i := by
    intro i h1 h2 h3 h4
    simp [a6, a5, mapAt, h3, h2, hup i h1, a3, a2, a1', h4]
  refine ⟨t6, ?_, ⟨?_, ?_, ?_⟩, ((((r1.trans r2).trans r3).trans r4).trans r5).trans r6, ?_⟩
  · simp only [rightRotate, getNode_ok ek, ok_bind, k2, e1, e2, getNode_ok e2j, e3]
    rw [j3 rfl, e4]
    simp only [ok_bind, e5, e6]
  · rw [q6, q5, q4]
    cases c with
    | nil => rfl
    | cons f c =>
      rw [if_neg (by simp), q3, q2, q1, ← hroot]
      exact Around.root_plug_cons f c _ _
  · rw [linked_plug]
    refine ⟨around_congr ?_ hA4, ⟨{ nk with parent := nj.parent, right := some j }, ?_, k1, rfl, fun _ => j3 rfl⟩, linked_congr ?_ lA,
      ⟨{ nj with left := B.root, parent := some k }, ?_, rfl, j2, fun _ => rfl⟩, ?_, linked_congr ?_ lC⟩
    · intro i hi
      simp only [linksOf, a6, a5, mapAt]
      rw [if_neg (by rintro rfl; exact hkc hi), if_neg (by rintro rfl; exact hjc hi)]
    · rw [a6]; simp [mapAt, e5k]
    · intro i hi
      have := hAc i hi
      simp only [linksOf]
      rw [same i this.1 this.2.1 this.2.2.1 (fun e => this.2.2.2 (Shape.root_mem e))]
    · rw [a6]; simp [mapAt, hjk, a5, e4j]
    · refine linked_reparent ?_ ?_ ndB lB
      · intro i hi hr
        have := hBc i hi
        simp only [linksOf]
        rw [same i this.1 this.2.1 this.2.2 hr]
      · intro i hi n hn
        have := hBc i (Shape.root_mem hi)
        refine ⟨{ n with parent := some j }, ?_, rfl, rfl, rfl⟩
        simp [a6, a5, mapAt, this.2.1, this.2.2, hup i this.1, a3, a2, a1', hi, hn]
    · intro i hi
      have := hCc i hi
      simp only [linksOf]
      rw [same i this.1 this.2.1 this.2.2.1 (fun e => this.2.2.2 (Shape.root_mem e))]
  · rw [Around.ids_plug]; simp only [Shape.ids]; grind
  · have c1 : SameContent t.at t1.at := by
      rw [a1]; exact sameContent_mapAt? (fun n => rfl)
    have c2 : SameContent t1.at t2.at := by rw [a2]; exact sameContent_mapAt (fun n => rfl)
    have c3 : SameContent t2.at t3.at := by rw [a3]; exact sameContent_mapAt (fun n => rfl)
    have c5 : SameContent t4.at t5.at := by rw [a5]; exact sameContent_mapAt (fun n => rfl)
    have c6 : SameContent t5.at t6.at := by rw [a6]; exact sameContent_mapAt (fun n => rfl)
    exact ((((c1.trans c2).trans c3).trans s4).trans c5).trans c6

theorem leftRotate_spec {t : BTree κ δ} {c : Around} {A B C : Shape} {j k : Nat}
    (h : TreeAt true t (Around.plug c (.node C j (.node B k A)))) :
    ∃ t', leftRotate t j k = .ok t' ∧ TreeAt true t' (Around.plug c (.node (.node C j B) k A)) ∧ SameRest t t' ∧
      SameContent t.at t'.at := by
  obtain ⟨hroot, hl, hnd⟩ := h
  rw [linked_plug] at hl
  obtain ⟨hA, ⟨nj, ej, j2, j1, j3⟩, lC, ⟨nk, ek, k2, k1, k3⟩, lB, lA⟩ := hl
  replace hA : LinkedAround true t.at c (some j) := hA
  rw [Around.ids_plug] at hnd
  simp only [Shape.ids] at hnd
  have hjc : j ∉ Around.before c ++ Around.after c := by grind
  have hkc : k ∉ Around.before c ++ Around.after c := by grind
  have hjk : j ≠ k := by grind
  have hBc : ∀ y ∈ B.ids, y ∉ Around.before c ++ Around.after c ∧ y ≠ j ∧ y ≠ k := by grind
  have hAc : ∀ y ∈ A.ids, y ∉ Around.before c ++ Around.after c ∧ y ≠ j ∧ y ≠ k ∧ y ∉ B.ids := by grind
  have hCc : ∀ y ∈ C.ids, y ∉ Around.before c ++ Around.after c ∧ y ≠ j ∧ y ≠ k ∧ y ∉ B.ids := by grind
  have ndB : B.ids.Nodup := by grind
  have ndc : (Around.plug c .leaf).ids.Nodup := by rw [Around.ids_plug]; simp only [Shape.ids]; grind
  obtain ⟨t1, e1, a1, r1, q1⟩ := modIf_spec (t := t) (o := B.root) (fun n => { n with parent := some j })
    (fun i hi => linked_isSome lB i (Shape.root_mem hi))
  have a1' : ∀ i, t1.at i = if B.root = some i then (t.at i).map (fun n => { n with parent := some j }) else t.at i := by
    intro i; rw [a1]; rfl
  have hBj : B.root ≠ some j := fun e => (hBc j (Shape.root_mem e)).2.1 rfl
  have hBk : B.root ≠ some k := fun e => (hBc k (Shape.root_mem e)).2.2 rfl
  have e1j : t1.at j = some nj := by rw [a1', if_neg hBj, ej]
  obtain ⟨t2, e2, a2, r2, q2⟩ := modNode_spec (t := t1) (i := j) (fun n => { n with right := B.root }) (by rw [e1j]; rfl)
  have e2j : t2.at j = some { nj with right := B.root } := by rw [a2]; simp [mapAt, e1j]
  have e2k : t2.at k = some nk := by rw [a2]; simp [mapAt, hjk.symm, a1', hBk, ek]
  obtain ⟨t3, e3, a3, r3, q3⟩ := modNode_spec (t := t2) (i := k) (fun n => { n with parent := nj.parent }) (by rw [e2k]; rfl)
  have hA3 : LinkedAround true t3.at c (some j) := by
    refine around_congr ?_ hA
    intro i hi
    have : B.root ≠ some i := fun e => (hBc i (Shape.root_mem e)).1 hi
    simp only [linksOf, a3, a2, mapAt, a1']
    rw [if_neg (by rintro rfl; exact hkc hi), if_neg (by rintro rfl; exact hjc hi), if_neg this]
  obtain ⟨t4, e4, r4, s4, a4, hA4, q4⟩ := hoist_spec (k := k) hA3 ndc hjc
  have hup : ∀ i, i ∉ Around.before c ++ Around.after c → t4.at i = t3.at i :=
    fun i hi => a4 i (fun e => hi (Around.up_mem e))
  have e4j : t4.at j = some { nj with right := B.root } := by rw [hup j hjc, a3]; simp [mapAt, hjk, e2j]
  obtain ⟨t5, e5, a5, r5, q5⟩ := modNode_spec (t := t4) (i := j) (fun n => { n with parent := some k }) (by rw [e4j]; rfl)
  have e5k : t5.at k = some { nk with parent := nj.parent } := by
    rw [a5]; simp [mapAt, hjk.symm, hup k hkc, a3, e2k]
  obtain ⟨t6, e6, a6, r6, q6⟩ := modNode_spec (t := t5) (i := k) (fun n => { n with left := some j }) (by rw [e5k]; rfl)
  have same : ∀ i, i ∉ Around.before c ++ Around.after c → i ≠ j → i ≠ k → B.root ≠ some i → t6.at i = t.at i := by
    intro i h1 h2 h3 h4
    simp [a6, a5, mapAt, h3, h2, hup i h1, a3, a2, a1', h4]
  refine ⟨t6, ?_, ⟨?_, ?_, ?_⟩, ((((r1.trans r2).trans r3).trans r4).trans r5).trans r6, ?_⟩
  · simp only [leftRotate, getNode_ok ek, ok_bind, k2, e1, e2, getNode_ok e2j, e3]
    rw [j3 rfl, e4]
    simp only [ok_bind, e5, e6]
  · rw [q6, q5, q4]
    cases c with
    | nil => rfl
    | cons f c =>
      rw [if_neg (by simp), q3, q2, q1, ← hroot]
      exact Around.root_plug_cons f c _ _
  · rw [linked_plug]
    suffices hs : LinkedAround true t6.at c (some k) ∧ (∃ n, t6.at k = some n ∧ n.left = some j ∧ n.right = A.root ∧ (true = true → n.parent = Around.up c)) ∧
        Linked true t6.at (some k) A ∧ (∃ n, t6.at j = some n ∧ n.left = C.root ∧ n.right = B.root ∧ (true = true → n.parent = some k)) ∧
        Linked true t6.at (some j) B ∧ Linked true t6.at (some j) C from
      ⟨hs.1, hs.2.1, ⟨hs.2.2.2.1, hs.2.2.2.2.2, hs.2.2.2.2.1⟩, hs.2.2.1⟩
    refine ⟨around_congr ?_ hA4, ⟨{ nk with parent := nj.parent, left := some j }, ?_, rfl, k1, fun _ => j3 rfl⟩, linked_congr ?_ lA,
      ⟨{ nj with right := B.root, parent := some k }, ?_, j2, rfl, fun _ => rfl⟩, ?_, linked_congr ?_ lC⟩
    · intro i hi
      simp only [linksOf, a6, a5, mapAt]
      rw [if_neg (by rintro rfl; exact hkc hi), if_neg (by rintro rfl; exact hjc hi)]
    · rw [a6]; simp [mapAt, e5k]
    · intro i hi
      have := hAc i hi
      simp only [linksOf]
      rw [same i this.1 this.2.1 this.2.2.1 (fun e => this.2.2.2 (Shape.root_mem e))]
    · rw [a6]; simp [mapAt, hjk, a5, e4j]
    · refine linked_reparent ?_ ?_ ndB lB
      · intro i hi hr
        have := hBc i hi
        simp only [linksOf]
        rw [same i this.1 this.2.1 this.2.2 hr]
      · intro i hi n hn
        have := hBc i (Shape.root_mem hi)
        refine ⟨{ n with parent := some j }, ?_, rfl, rfl, rfl⟩
        simp [a6, a5, mapAt, this.2.1, this.2.2, hup i this.1, a3, a2, a1', hi, hn]
    · intro i hi
      have := hCc i hi
      simp only [linksOf]
      rw [same i this.1 this.2.1 this.2.2.1 (fun e => this.2.2.2 (Shape.root_mem e))]
  · rw [Around.ids_plug]; simp only [Shape.ids]; grind
  · have c1 : SameContent t.at t1.at := by
      rw [a1]; exact sameContent_mapAt? (fun n => rfl)
    have c2 : SameContent t1.at t2.at := by rw [a2]; exact sameContent_mapAt (fun n => rfl)
    have c3 : SameContent t2.at t3.at := by rw [a3]; exact sameContent_mapAt (fun n => rfl)
    have c5 : SameContent t4.at t5.at := by rw [a5]; exact sameContent_mapAt (fun n => rfl)
    have c6 : SameContent t5.at t6.at := by rw [a6]; exact sameContent_mapAt (fun n => rfl)
    exact ((((c1.trans c2).trans c3).trans s4).trans c5).trans c6

set_option maxHeartbeats 1000000 in
theorem leftRightRotate_spec {t : BTree κ δ} {c : Around} {A V W C : Shape} {i j k : Nat}
    (h : TreeAt true t (Around.plug c (.node (.node A k (.node V i W)) j C))) :
    ∃ t', leftRightRotate t j k = .ok t' ∧ TreeAt true t' (Around.plug c (.node (.node A k V) i (.node W j C))) ∧ SameRest t t' ∧
      SameContent t.at t'.at := by
  obtain ⟨hroot, hl, hnd⟩ := h
  rw [linked_plug] at hl
  obtain ⟨hA, ⟨nj, ej, j1, j2, j3⟩, ⟨⟨nk, ek, k1, k2, k3⟩, lA, ⟨ni, ei, i1, i2, i3⟩, lV, lW⟩, lC⟩ := hl
  replace hA : LinkedAround true t.at c (some j) := hA
  replace k2 : nk.right = some i := k2
  rw [Around.ids_plug] at hnd
  simp only [Shape.ids] at hnd
  have hjc : j ∉ Around.before c ++ Around.after c := by grind
  have hkc : k ∉ Around.before c ++ Around.after c := by grind
  have hic : i ∉ Around.before c ++ Around.after c := by grind
  have hjk : j ≠ k := by grind
  have hij : i ≠ j := by grind
  have hik : i ≠ k := by grind
  have hAc : ∀ y ∈ A.ids, y ∉ Around.before c ++ Around.after c ∧ y ≠ j ∧ y ≠ k ∧ y ≠ i ∧ y ∉ V.ids ∧ y ∉ W.ids := by grind
  have hCc : ∀ y ∈ C.ids, y ∉ Around.before c ++ Around.after c ∧ y ≠ j ∧ y ≠ k ∧ y ≠ i ∧ y ∉ V.ids ∧ y ∉ W.ids := by grind
  have hVc : ∀ y ∈ V.ids, y ∉ Around.before c ++ Around.after c ∧ y ≠ j ∧ y ≠ k ∧ y ≠ i ∧ y ∉ W.ids := by grind
  have hWc : ∀ y ∈ W.ids, y ∉ Around.before c ++ Around.after c ∧ y ≠ j ∧ y ≠ k ∧ y ≠ i ∧ y ∉ V.ids := by grind
  have ndV : V.ids.Nodup := by grind
  have ndW : W.ids.Nodup := by grind
  have ndc : (Around.plug c .leaf).ids.Nodup := by rw [Around.ids_plug]; simp only [Shape.ids]; grind
  have hVr : ∀ y, V.root = some y → y ∈ V.ids := fun y e => Shape.root_mem e
  have hWr : ∀ y, W.root = some y → y ∈ W.ids := fun y e => Shape.root_mem e
  have hVj : V.root ≠ some j := fun e => (hVc j (hVr j e)).2.1 rfl
  have hVk : V.root ≠ some k := fun e => (hVc k (hVr k e)).2.2.1 rfl
  have hVi : V.root ≠ some i := fun e => (hVc i (hVr i e)).2.2.2.1 rfl
  have hWj : W.root ≠ some j := fun e => (hWc j (hWr j e)).2.1 rfl
  have hWk : W.root ≠ some k := fun e => (hWc k (hWr k e)).2.2.1 rfl
  have hWi : W.root ≠ some i := fun e => (hWc i (hWr i e)).2.2.2.1 rfl
  have sV : ∀ y, V.root = some y → (t.at y).isSome := fun y e => linked_isSome lV y (hVr y e)
  have sW : ∀ y, W.root = some y → (t.at y).isSome := fun y e => linked_isSome lW y (hWr y e)
  obtain ⟨t1, e1, a1, r1, q1⟩ := modNode_spec (t := t) (i := k) (fun n => { n with right := V.root }) (by rw [ek]; rfl)
  obtain ⟨t2, e2, a2, r2, q2⟩ := modNode_spec (t := t1) (i := j) (fun n => { n with left := W.root }) (by
    simp [a1, mapAt, hjk, ej])
  obtain ⟨t3, e3, a3, r3, q3⟩ := modIf_spec (t := t2) (o := V.root) (fun n => { n with parent := some k }) (by
    intro y hy
    have := hVc y (hVr y hy)
    simpa [a2, a1, mapAt, this.2.1, this.2.2.1] using sV y hy)
  obtain ⟨t4, e4, a4, r4, q4⟩ := modIf_spec (t := t3) (o := W.root) (fun n => { n with parent := some j }) (by
    intro y hy
    have := hWc y (hWr y hy)
    have hne : V.root ≠ some y := fun e => this.2.2.2.2 (hVr y e)
    simpa [a3, mapAt?, hne, a2, a1, mapAt, this.2.1, this.2.2.1] using sW y hy)
  have e4j : t4.at j = some { nj with left := W.root } := by simp [a4, a3, mapAt?, hWj, hVj, a2, a1, mapAt, hjk, ej]
  have e4i : t4.at i = some ni := by simp [a4, a3, mapAt?, hWi, hVi, a2, a1, mapAt, hij, hik, ei]
  obtain ⟨t5, e5, a5, r5, q5⟩ := modNode_spec (t := t4) (i := i)
    (fun n => { n with left := some k, right := some j, parent := nj.parent }) (by rw [e4i]; rfl)
  have e5k : t5.at k = some { nk with right := V.root } := by
    simp [a5, a4, a3, mapAt?, hWk, hVk, a2, a1, mapAt, hik.symm, hjk.symm, ek]
  obtain ⟨t6, e6, a6, r6, q6⟩ := modNode_spec (t := t5) (i := k) (fun n => { n with parent := some i }) (by rw [e5k]; rfl)
  have e6j : t6.at j = some { nj with left := W.root } := by simp [a6, a5, mapAt, hjk, hij.symm, e4j]
  obtain ⟨t7, e7, a7, r7, q7⟩ := modNode_spec (t := t6) (i := j) (fun n => { n with parent := some i }) (by rw [e6j]; rfl)
  have same7 : ∀ y, y ≠ j → y ≠ k → y ≠ i → V.root ≠ some y → W.root ≠ some y → t7.at y = t.at y := by
    intro y h1 h2 h3 h4 h5
    simp [a7, a6, a5, mapAt, h1, h2, h3, a4, a3, mapAt?, h4, h5, a2, a1]
  have hA7 : LinkedAround true t7.at c (some j) := by
    refine around_congr ?_ hA
    intro y hy
    simp only [linksOf]
    rw [same7 y (by rintro rfl; exact hjc hy) (by rintro rfl; exact hkc hy) (by rintro rfl; exact hic hy)
      (fun e => (hVc y (hVr y e)).1 hy) (fun e => (hWc y (hWr y e)).1 hy)]
  obtain ⟨t8, e8, r8, s8, a8, hA8, q8⟩ := hoist_spec (k := i) hA7 ndc hjc
  have hup : ∀ y, y ∉ Around.before c ++ Around.after c → t8.at y = t7.at y :=
    fun y hy => a8 y (fun e => hy (Around.up_mem e))
  have same : ∀ y, y ∉ Around.before c ++ Around.after c → y ≠ j → y ≠ k → y ≠ i → V.root ≠ some y → W.root ≠ some y →
      t8.at y = t.at y := fun y h0 h1 h2 h3 h4 h5 => by rw [hup y h0, same7 y h1 h2 h3 h4 h5]
  have fi : t8.at i = some { ni with left := some k, right := some j, parent := nj.parent } := by
    rw [hup i hic]; simp [a7, a6, a5, mapAt, hij, hik, e4i]
  have fk : t8.at k = some { nk with right := V.root, parent := some i } := by
    rw [hup k hkc, a7]; simp [a6, mapAt, hjk.symm, e5k]
  have fj : t8.at j = some { nj with left := W.root, parent := some i } := by
    rw [hup j hjc, a7]; simp [mapAt, e6j]
  have lA' : Linked true t8.at (some k) A := by
    refine linked_congr ?_ lA
    intro y hy
    obtain ⟨h0, h1, h2, h3, h4, h5⟩ := hAc y hy
    simp only [linksOf]
    rw [same y h0 h1 h2 h3 (fun e => h4 (hVr y e)) (fun e => h5 (hWr y e))]
  have lC' : Linked true t8.at (some j) C := by
    refine linked_congr ?_ lC
    intro y hy
    obtain ⟨h0, h1, h2, h3, h4, h5⟩ := hCc y hy
    simp only [linksOf]
    rw [same y h0 h1 h2 h3 (fun e => h4 (hVr y e)) (fun e => h5 (hWr y e))]
  have lV' : Linked true t8.at (some k) V := by
    refine linked_reparent ?_ ?_ ndV lV
    · intro y hy hr
      obtain ⟨h0, h1, h2, h3, h5⟩ := hVc y hy
      simp only [linksOf]
      rw [same y h0 h1 h2 h3 hr (fun e => h5 (hWr y e))]
    · intro y hy n hn
      obtain ⟨h0, h1, h2, h3, h5⟩ := hVc y (hVr y hy)
      have hw : W.root ≠ some y := fun e => h5 (hWr y e)
      refine ⟨{ n with parent := some k }, ?_, rfl, rfl, rfl⟩
      rw [hup y h0]
      simp [a7, a6, a5, mapAt, h1, h2, h3, a4, a3, mapAt?, hw, hy, a2, a1, hn]
  have lW' : Linked true t8.at (some j) W := by
    refine linked_reparent ?_ ?_ ndW lW
    · intro y hy hr
      obtain ⟨h0, h1, h2, h3, h5⟩ := hWc y hy
      simp only [linksOf]
      rw [same y h0 h1 h2 h3 (fun e => h5 (hVr y e)) hr]
    · intro y hy n hn
      obtain ⟨h0, h1, h2, h3, h5⟩ := hWc y (hWr y hy)
      have hw : V.root ≠ some y := fun e => h5 (hVr y e)
      refine ⟨{ n with parent := some j }, ?_, rfl, rfl, rfl⟩
      rw [hup y h0]
      simp [a7, a6, a5, mapAt, h1, h2, h3, a4, a3, mapAt?, hw, hy, a2, a1, hn]
  refine ⟨t8, ?_, ⟨?_, ?_, ?_⟩, ((((((r1.trans r2).trans r3).trans r4).trans r5).trans r6).trans r7).trans r8, ?_⟩
  · simp only [leftRightRotate, getNode_ok ek, ok_bind, k2, asIdx, getNode_ok ei, i1, i2, e1, e2, e3, e4, getNode_ok e4j, e5, e6, e7]
    rw [j3 rfl, e8]
  · rw [q8]
    cases c with
    | nil => rfl
    | cons f c =>
      rw [if_neg (by simp), q7, q6, q5, q4, q3, q2, q1, ← hroot]
      exact Around.root_plug_cons f c _ _
  · rw [linked_plug]
    exact ⟨hA8, ⟨_, fi, rfl, rfl, fun _ => j3 rfl⟩, ⟨⟨_, fk, k1, rfl, fun _ => rfl⟩, lA', lV'⟩,
      ⟨_, fj, rfl, j2, fun _ => rfl⟩, lW', lC'⟩
  · rw [Around.ids_plug]; simp only [Shape.ids]; grind
  · have c1 : SameContent t.at t1.at := by rw [a1]; exact sameContent_mapAt (fun n => rfl)
    have c2 : SameContent t1.at t2.at := by rw [a2]; exact sameContent_mapAt (fun n => rfl)
    have c3 : SameContent t2.at t3.at := by rw [a3]; exact sameContent_mapAt? (fun n => rfl)
    have c4 : SameContent t3.at t4.at := by rw [a4]; exact sameContent_mapAt? (fun n => rfl)
    have c5 : SameContent t4.at t5.at := by rw [a5]; exact sameContent_mapAt (fun n => rfl)
    have c6 : SameContent t5.at t6.at := by rw [a6]; exact sameContent_mapAt (fun n => rfl)
    have c7 : SameContent t6.at t7.at := by rw [a7]; exact sameContent_mapAt (fun n => rfl)
    exact ((((((c1.trans c2).trans c3).trans c4).trans c5).trans c6).trans c7).trans s8

set_option maxHeartbeats 1000000 in
theorem rightLeftRotate_spec {t : BTree κ δ} {c : Around} {A V W C : Shape} {i j k : Nat}
    (h : TreeAt true t (Around.plug c (.node C j (.node (.node W i V) k A)))) :
    ∃ t', rightLeftRotate t j k = .ok t' ∧ TreeAt true t' (Around.plug c (.node (.node C j W) i (.node V k A))) ∧ SameRest t t' ∧
      SameContent t.at t'.at := by
  obtain ⟨hroot, hl, hnd⟩ := h
  rw [linked_plug] at hl
  obtain ⟨hA, ⟨nj, ej, j2, j1, j3⟩, lC, ⟨nk, ek, k2, k1, k3⟩, ⟨⟨ni, ei, i2, i1, i3⟩, lW, lV⟩, lA⟩ := hl
  replace hA : LinkedAround true t.at c (some j) := hA
  replace k2 : nk.left = some i := k2
  rw [Around.ids_plug] at hnd
  simp only [Shape.ids] at hnd
  have hjc : j ∉ Around.before c ++ Around.after c := by grind
  have hkc : k ∉ Around.before c ++ Around.after c := by grind
  have hic : i ∉ Around.before c ++ Around.after c := by grind
  have hjk : j ≠ k := by grind
  have hij : i ≠ j := by grind
  have hik : i ≠ k := by grind
  have hAc : ∀ y ∈ A.ids, y ∉ Around.before c ++ Around.after c ∧ y ≠ j ∧ y ≠ k ∧ y ≠ i ∧ y ∉ V.ids ∧ y ∉ W.ids := by grind
  have hCc : ∀ y ∈ C.ids, y ∉ Around.before c ++ Around.after c ∧ y ≠ j ∧ y ≠ k ∧ y ≠ i ∧ y ∉ V.ids ∧ y ∉ W.ids := by grind
  have hVc : ∀ y ∈ V.ids, y ∉ Around.before c ++ Around.after c ∧ y ≠ j ∧ y ≠ k ∧ y ≠ i ∧ y ∉ W.ids := by grind
  have hWc : ∀ y ∈ W.ids, y ∉ Around.before c ++ Around.after c ∧ y ≠ j ∧ y ≠ k ∧ y ≠ i ∧ y ∉ V.ids := by grind
  have ndV : V.ids.Nodup := by grind
  have ndW : W.ids.Nodup := by grind
  have ndc : (Around.plug c .leaf).ids.Nodup := by rw [Around.ids_plug]; simp only [Shape.ids]; grind
  have hVr : ∀ y, V.root = some y → y ∈ V.ids := fun y e => Shape.root_mem e
  have hWr : ∀ y, W.root = some y → y ∈ W.ids := fun y e => Shape.root_mem e
  have hVj : V.root ≠ some j := fun e => (hVc j (hVr j e)).2.1 rfl
  have hVk : V.root ≠ some k := fun e => (hVc k (hVr k e)).2.2.1 rfl
  have hVi : V.root ≠ some i := fun e => (hVc i (hVr i e)).2.2.2.1 rfl
  have hWj : W.root ≠ some j := fun e => (hWc j (hWr j e)).2.1 rfl
  have hWk : W.root ≠ some k := fun e => (hWc k (hWr k e)).2.2.1 rfl
  have hWi : W.root ≠ some i := fun e => (hWc i (hWr i e)).2.2.2.1 rfl
  have sV : ∀ y, V.root = some y → (t.at y).isSome := fun y e => linked_isSome lV y (hVr y e)
  have sW : ∀ y, W.root = some y → (t.at y).isSome := fun y e => linked_isSome lW y (hWr y e)
  obtain ⟨t1, e1, a1, r1, q1⟩ := modNode_spec (t := t) (i := k) (fun n => { n with left := V.root }) (by rw [ek]; rfl)
  obtain ⟨t2, e2, a2, r2, q2⟩ := modNode_spec (t := t1) (i := j) (fun n => { n with right := W.root }) (by
    simp [a1, mapAt, hjk, ej])
  obtain ⟨t3, e3, a3, r3, q3⟩ := modIf_spec (t := t2) (o := W.root) (fun n => { n with parent := some j }) (by
    intro y hy
    have := hWc y (hWr y hy)
    simpa [a2, a1, mapAt, this.2.1, this.2.2.1] using sW y hy)
  obtain ⟨t4, e4, a4, r4, q4⟩ := modIf_spec (t := t3) (o := V.root) (fun n => { n with parent := some k }) (by
    intro y hy
    have := hVc y (hVr y hy)
    have hne : W.root ≠ some y := fun e => this.2.2.2.2 (hWr y e)
    simpa [a3, mapAt?, hne, a2, a1, mapAt, this.2.1, this.2.2.1] using sV y hy)
  have e4j : t4.at j = some { nj with right := W.root } := by simp [a4, a3, mapAt?, hWj, hVj, a2, a1, mapAt, hjk, ej]
  have e4i : t4.at i = some ni := by simp [a4, a3, mapAt?, hWi, hVi, a2, a1, mapAt, hij, hik, ei]
  obtain ⟨t5, e5, a5, r5, q5⟩ := modNode_spec (t := t4) (i := i)
    (fun n => { n with right := some k, left := some j, parent := nj.parent }) (by rw [e4i]; rfl)
  have e5k : t5.at k = some { nk with left := V.root } := by
    simp [a5, a4, a3, mapAt?, hWk, hVk, a2, a1, mapAt, hik.symm, hjk.symm, ek]
  obtain ⟨t6, e6, a6, r6, q6⟩ := modNode_spec (t := t5) (i := k) (fun n => { n with parent := some i }) (by rw [e5k]; rfl)
  have e6j : t6.at j = some { nj with right := W.root } := by simp [a6, a5, mapAt, hjk, hij.symm, e4j]
  obtain ⟨t7, e7, a7, r7, q7⟩ := modNode_spec (t := t6) (i := j) (fun n => { n with parent := some i }) (by rw [e6j]; rfl)
  have same7 : ∀ y, y ≠ j → y ≠ k → y ≠ i → V.root ≠ some y → W.root ≠ some y → t7.at y = t.at y := by
    intro y h1 h2 h3 h4 h5
    simp [a7, a6, a5, mapAt, h1, h2, h3, a4, a3, mapAt?, h4, h5, a2, a1]
  have hA7 : LinkedAround true t7.at c (some j) := by
    refine around_congr ?_ hA
    intro y hy
    simp only [linksOf]
    rw [same7 y (by rintro rfl; exact hjc hy) (by rintro rfl; exact hkc hy) (by rintro rfl; exact hic hy)
      (fun e => (hVc y (hVr y e)).1 hy) (fun e => (hWc y (hWr y e)).1 hy)]
  obtain ⟨t8, e8, r8, s8, a8, hA8, q8⟩ := hoist_spec (k := i) hA7 ndc hjc
  have hup : ∀ y, y ∉ Around.before c ++ Around.after c → t8.at y = t7.at y :=
    fun y hy => a8 y (fun e => hy (Around.up_mem e))
  have same : ∀ y, y ∉ Around.before c ++ Around.after c → y ≠ j → y ≠ k → y ≠ i → V.root ≠ some y → W.root ≠ some y →
      t8.at y = t.at y := fun y h0 h1 h2 h3 h4 h5 => by rw [hup y h0, same7 y h1 h2 h3 h4 h5]
  have fi : t8.at i = some { ni with right := some k, left := some j, parent := nj.parent } := by
    rw [hup i hic]; simp [a7, a6, a5, mapAt, hij, hik, e4i]
  have fk : t8.at k = some { nk with left := V.root, parent := some i } := by
    rw [hup k hkc, a7]; simp [a6, mapAt, hjk.symm, e5k]
  have fj : t8.at j = some { nj with right := W.root, parent := some i } := by
    rw [hup j hjc, a7]; simp [mapAt, e6j]
  have lA' : Linked true t8.at (some k) A := by
    refine linked_congr ?_ lA
    intro y hy
    obtain ⟨h0, h1, h2, h3, h4, h5⟩ := hAc y hy
    simp only [linksOf]
    rw [same y h0 h1 h2 h3 (fun e => h4 (hVr y e)) (fun e => h5 (hWr y e))]
  have lC' : Linked true t8.at (some j) C := by
    refine linked_congr ?_ lC
    intro y hy
    obtain ⟨h0, h1, h2, h3, h4, h5⟩ := hCc y hy
    simp only [linksOf]
    rw [same y h0 h1 h2 h3 (fun e => h4 (hVr y e)) (fun e => h5 (hWr y e))]
  have lV' : Linked true t8.at (some k) V := by
    refine linked_reparent ?_ ?_ ndV lV
    · intro y hy hr
      obtain ⟨h0, h1, h2, h3, h5⟩ := hVc y hy
      simp only [linksOf]
      rw [same y h0 h1 h2 h3 hr (fun e => h5 (hWr y e))]
    · intro y hy n hn
      obtain ⟨h0, h1, h2, h3, h5⟩ := hVc y (hVr y hy)
      have hw : W.root ≠ some y := fun e => h5 (hWr y e)
      refine ⟨{ n with parent := some k }, ?_, rfl, rfl, rfl⟩
      rw [hup y h0]
      simp [a7, a6, a5, mapAt, h1, h2, h3, a4, a3, mapAt?, hw, hy, a2, a1, hn]
  have lW' : Linked true t8.at (some j) W := by
    refine linked_reparent ?_ ?_ ndW lW
    · intro y hy hr
      obtain ⟨h0, h1, h2, h3, h5⟩ := hWc y hy
      simp only [linksOf]
      rw [same y h0 h1 h2 h3 (fun e => h5 (hVr y e)) hr]
    · intro y hy n hn
      obtain ⟨h0, h1, h2, h3, h5⟩ := hWc y (hWr y hy)
      have hw : V.root ≠ some y := fun e => h5 (hVr y e)
      refine ⟨{ n with parent := some j }, ?_, rfl, rfl, rfl⟩
      rw [hup y h0]
      simp [a7, a6, a5, mapAt, h1, h2, h3, a4, a3, mapAt?, hw, hy, a2, a1, hn]
  refine ⟨t8, ?_, ⟨?_, ?_, ?_⟩, ((((((r1.trans r2).trans r3).trans r4).trans r5).trans r6).trans r7).trans r8, ?_⟩
  · simp only [rightLeftRotate, getNode_ok ek, ok_bind, k2, asIdx, getNode_ok ei, i1, i2, e1, e2, e3, e4, getNode_ok e4j, e5, e6, e7]
    rw [j3 rfl, e8]
  · rw [q8]
    cases c with
    | nil => rfl
    | cons f c =>
      rw [if_neg (by simp), q7, q6, q5, q4, q3, q2, q1, ← hroot]
      exact Around.root_plug_cons f c _ _
  · rw [linked_plug]
    exact ⟨hA8, ⟨_, fi, rfl, rfl, fun _ => j3 rfl⟩, ⟨⟨_, fj, j2, rfl, fun _ => rfl⟩, lC', lW'⟩,
      ⟨_, fk, rfl, k1, fun _ => rfl⟩, lV', lA'⟩
  · rw [Around.ids_plug]; simp only [Shape.ids]; grind
  · have c1 : SameContent t.at t1.at := by rw [a1]; exact sameContent_mapAt (fun n => rfl)
    have c2 : SameContent t1.at t2.at := by rw [a2]; exact sameContent_mapAt (fun n => rfl)
    have c3 : SameContent t2.at t3.at := by rw [a3]; exact sameContent_mapAt? (fun n => rfl)
    have c4 : SameContent t3.at t4.at := by rw [a4]; exact sameContent_mapAt? (fun n => rfl)
    have c5 : SameContent t4.at t5.at := by rw [a5]; exact sameContent_mapAt (fun n => rfl)
    have c6 : SameContent t5.at t6.at := by rw [a6]; exact sameContent_mapAt (fun n => rfl)
    have c7 : SameContent t6.at t7.at := by rw [a7]; exact sameContent_mapAt (fun n => rfl)
    exact ((((((c1.trans c2).trans c3).trans c4).trans c5).trans c6).trans c7).trans s8

end Props
