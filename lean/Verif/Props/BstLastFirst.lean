import Verif.Lemmas.Bind
import Verif.Props.CartDelete
import Verif.Lemmas.ContractTree

/-!
# C73: the keys deleted last-inserted-first, across every contraction of the array
-/
namespace Props
open Py Model Spec
set_option linter.unusedSectionVars false
variable {κ δ : Type} [DecidableEq κ]

/-! ## Specification -/

/-- The calls delete keys that are not there, or the key that was inserted last of those left: `ks` are the keys left, the last inserted first. No key is
deleted from an empty tree. -/
def LastFirst : List κ → List κ → Prop
  | _, [] => True
  | ks, k :: dels => ks ≠ [] ∧ (k ∉ ks ∧ LastFirst ks dels ∨ ks.head? = some k ∧ LastFirst ks.tail dels)

def deletesOf (dels : List κ) : List (BstOp κ δ) := dels.map fun k => .delete k

/-! ## Trees that can be taken apart leaf by leaf -/

/-- The nodes of `T`, which hold the entries `E`, can be taken off in the order `ks`, each being a leaf at its turn. -/
inductive Peel : Shape → List (κ × Option δ) → List κ → Prop where
  | last (x : Nat) (k : κ) (d : Option δ) : Peel (.node .leaf x .leaf) [(k, d)] [k]
  | leaf (f : Frame) (c : Around) (x : Nat) (E1 E2 : List (κ × Option δ)) (k : κ) (d : Option δ) (ks : List κ)
      (hl : (Around.before (f :: c)).length = E1.length) (h : Peel (Around.plug (f :: c) .leaf) (E1 ++ E2) ks) :
      Peel (Around.plug (f :: c) (.node .leaf x .leaf)) (E1 ++ (k, d) :: E2) (k :: ks)

theorem Around.before_rename (f : Nat → Nat) : ∀ c : Around, (Around.before (c.map (Frame.rename f))).length = (Around.before c).length := by
  intro c
  induction c with
  | nil => rfl
  | cons g c ih => cases g <;> simp [Around.before, Frame.rename, Shape.ids_rename, ih]

theorem Peel.rename {T : Shape} {E : List (κ × Option δ)} {ks : List κ} (h : Peel T E ks) (ρ : Nat → Nat) : Peel (T.rename ρ) E ks := by
  induction h with
  | last x k d => exact .last _ k d
  | leaf f c x E1 E2 k d ks hl _ ih =>
    rw [rename_plug] at ih ⊢
    exact .leaf (f.rename ρ) (c.map (Frame.rename ρ)) (ρ x) E1 E2 k d ks (by rw [← hl]; exact Around.before_rename ρ (f :: c)) ih

theorem Peel.mem {T : Shape} {E : List (κ × Option δ)} {ks : List κ} (h : Peel T E ks) (k : κ) : k ∈ ks ↔ Has E k := by
  induction h with
  | last x k' d => simp [Has]
  | leaf f c x E1 E2 k' d ks _ _ ih =>
    rw [List.mem_cons, ih]
    unfold Has
    constructor
    · rintro (rfl | ⟨d', h⟩)
      · exact ⟨d, by simp⟩
      · exact ⟨d', by simp only [List.mem_append, List.mem_cons] at h ⊢; rcases h with h | h <;> simp [h]⟩
    · rintro ⟨d', h⟩
      simp only [List.mem_append, List.mem_cons, Prod.mk.injEq] at h
      rcases h with h | ⟨rfl, _⟩ | h
      · exact .inr ⟨d', by simp [h]⟩
      · exact .inl rfl
      · exact .inr ⟨d', by simp [h]⟩

/-- `delete` finds a leaf, or nothing. -/
def FindsLeaf (lt : κ → κ → Bool) (fuel : Nat) (t : BTree κ δ) (k : κ) : Prop :=
  (∃ p, bstSearchP lt fuel t k = .ok (some (none, p))) ∨
  ∃ w q n, bstSearchP lt fuel t k = .ok (some (some w, q)) ∧ getNode t w = .ok n ∧ n.left = none ∧ n.right = none

/-- Every one of the deletions does. -/
def FindLeaves (lt : κ → κ → Bool) (fuel : Nat) : BTree κ δ → List κ → Prop
  | _, [] => True
  | t, k :: dels => FindsLeaf lt fuel t k ∧ ∀ r, bstDelete lt fuel t k = .ok r → FindLeaves lt fuel r.1 dels

theorem findsLeaf_absent {lt : κ → κ → Bool} {fuel : Nat} {t t' : BTree κ δ} {k : κ} (h : bstDelete lt fuel t k = .ok (t', false)) : FindsLeaf lt fuel t k := by
  unfold bstDelete bstDeleteInfo at h
  obtain ⟨q, e, h⟩ := Py.bind_ok h
  obtain ⟨o, e1, e⟩ := Py.bind_ok e
  match o, e1, e with
  | none, _, e => cases e
  | some (none, p), e1, _ => exact .inl ⟨p, e1⟩
  | some (some w, p), _, e =>
    dsimp only at e
    obtain ⟨n, _, e⟩ := Py.bind_ok e
    obtain ⟨s, _, e⟩ := Py.bind_ok e
    cases e
    cases h

/-! ## The state -/

/-- A tree that has only been filled, and taken apart leaf by leaf. -/
structure Peelable (lt : κ → κ → Bool) (t : BTree κ δ) (T : Shape) (E : List (κ × Option δ)) (ks : List κ) : Prop where
  stored : Stored t T E
  sorted : E.Pairwise fun a b => lt a.1 b.1 = true
  os : t.orderStat = false
  peel : Peel T E ks

theorem Peelable.holding {lt : κ → κ → Bool} {t : BTree κ δ} {T : Shape} {E : List (κ × Option δ)} {ks : List κ} (h : Peelable lt t T E ks) : Holding lt t T E :=
  ⟨⟨h.stored.tree.root, h.stored.tree.linked.weaken, h.stored.tree.nodup⟩, h.stored.ent, h.sorted, fun i hi => h.stored.low i (h.stored.occ i hi),
    h.stored.cap, h.stored.num, h.os⟩

/-- A new key becomes a leaf. -/
theorem Peelable.insert {lt : κ → κ → Bool} (ht : StrictTotal (ltRel lt)) {t : BTree κ δ} {T : Shape} {E : List (κ × Option δ)} {ks : List κ}
    (h : Peelable lt t T E ks) {k : κ} (hk : k ∉ ks) (d : Option δ) (hf : FullOf t E.length) :
    ∃ t' T' E', Peelable lt t' T' E' (k :: ks) ∧ E'.Perm ((k, d) :: E) ∧ FullOf t' E'.length ∧ ∃ n0, ∀ fuel, n0 ≤ fuel → bstInsert lt fuel t k d = .ok t' := by
  obtain ⟨f1, f2, f3, f4, f5⟩ := hf
  have hE : 1 ≤ E.length := by
    rw [h.stored.ent.length]
    exact List.length_pos_of_mem (Shape.root_mem h.stored.tree.root)
  have hk' : ∀ d, (k, d) ∉ E := fun d hd => hk ((h.peel.mem k).mpr ⟨d, hd⟩)
  have hg : grown t ≤ 4 * (t.num + 1) := by unfold grown; split <;> omega
  obtain ⟨f, c, t', E1, E2, rfl, rfl, hh, hH, hrun⟩ := bstInsert_hung ht h.holding hk' d f1 hg
  have htree := hung_tree h.stored.tree h.stored.low hH
  have hlen : (Around.before (f :: c)).length = E1.length := by
    have hent := hh.ent
    rw [Around.ids_plug] at hent
    simp only [Shape.ids, List.append_assoc, List.cons_append, List.nil_append] at hent
    obtain ⟨A1, A2, e, a1, a2⟩ := Ent.append_iff.mp hent
    obtain ⟨b, B2, rfl, b1, b2⟩ := Ent.cons_iff.mp a2
    have hbk : b = (k, d) := by
      have hft : t.top ≠ f.idx := fun e => absurd (h.stored.low f.idx (Frame.idx_mem f c _)) (by omega)
      have : entryAt t'.at t.top = some (k, d) := by
        refine entryAt_some.mpr ⟨{ key := some k, data := d, parent := some f.idx }, ?_, rfl, rfl⟩
        rw [hH.cells]; simp [hung, mapAt, hft]
      rw [this] at b1
      exact (Option.some.inj b1).symm
    subst hbk
    have hs := hh.sorted
    have : E1 = A1 := by
      have hnot : ∀ L R : List (κ × Option δ), E1 ++ (k, d) :: E2 = L ++ (k, d) :: R → E1 = L := by
        intro L R hLR
        rcases List.append_eq_append_iff.mp hLR with ⟨M, e1, e2⟩ | ⟨M, e1, e2⟩
        · cases M with
          | nil => simpa using e1.symm
          | cons m M =>
            simp only [List.cons_append, List.cons.injEq] at e2
            have : (k, d) ∈ E2 := by rw [e2.2]; simp
            exact absurd (by simp [this]) (hk' d)
        · cases M with
          | nil => simpa using e1
          | cons m M =>
            simp only [List.cons_append, List.cons.injEq] at e2
            have : (k, d) ∈ E1 := by rw [e1, ← e2.1]; simp
            exact absurd (by simp [this]) (hk' d)
      exact hnot A1 B2 e
    rw [this, a1.length]
  have hids : ∀ i, i ∈ (Around.plug (f :: c) (.node .leaf t.top .leaf)).ids ↔ i = t.top ∨ i ∈ (Around.plug (f :: c) .leaf).ids := by
    intro i; simp [mem_plug, Shape.ids]
  refine ⟨t', _, _, ⟨⟨htree, hh.ent, fun i hi => ?_, fun i hi => ?_, fun _ => ?_, ?_, hh.cap, hh.num⟩, hh.sorted, hh.os, .leaf f c t.top E1 E2 k d ks hlen h.peel⟩,
    List.perm_middle, ?_, hrun⟩
  · rw [hids]
    by_cases e : i = t.top
    · exact .inl e
    · refine .inr ?_
      rw [hH.cells] at hi
      by_cases e' : i = f.idx
      · subst e'; exact Frame.idx_mem f c _
      · exact h.stored.occ i (by simpa [hung, mapAt, if_neg e, if_neg e'] using hi)
  · rw [hids] at hi
    rw [hH.top]
    rcases hi with rfl | hi
    · omega
    · have := h.stored.low i hi; omega
  · rw [hids, hH.top]; exact .inl (by omega)
  · rw [hH.top, hH.size]; omega
  · have e1 := hH.top
    have e2 := hH.size
    have e3 := hH.num
    have e4 := hH.len
    have e5 : (E1 ++ (k, d) :: E2).length = (E1 ++ E2).length + 1 := by simp; omega
    refine ⟨by omega, by omega, by rw [e5]; omega, ?_, ?_⟩ <;> rw [e4, e1] <;> unfold grown <;> split <;> omega

/-- The key inserted last is deleted, whether the array is contracted or not. -/
theorem Peelable.delete {lt : κ → κ → Bool} (ht : StrictTotal (ltRel lt)) {t : BTree κ δ} {T : Shape} {E : List (κ × Option δ)} {k : κ} {ks : List κ}
    (h : Peelable lt t T E (k :: ks)) :
    ∃ t', (ks = [] ∧ Cleared t' ∨ ∃ T', Peelable lt t' T' (E.filter fun e => e.1 ≠ k) ks) ∧
      ∃ n0, ∀ fuel, n0 ≤ fuel → bstDelete lt fuel t k = .ok (t', true) ∧ FindsLeaf lt fuel t k := by
  obtain ⟨st, hs, ho, hp⟩ := h
  cases hp with
  | last x k d =>
    have hold : Holding lt t (.node .leaf x .leaf) [(k, d)] := (Peelable.mk st hs ho (.last x k d)).holding
    obtain ⟨t', hc, _, hrun⟩ := delete_root_leaf hold
    have hki : keyOf t.at x = some k := by
      have := st.ent
      simp only [Shape.ids, List.nil_append] at this
      obtain ⟨e, E', h1, h2, _⟩ := Ent.cons_iff.mp this
      have := keyOf_entry h2
      cases h1
      exact this
    refine ⟨t', .inl ⟨rfl, hc⟩, 4, fun fuel hf => ?_⟩
    have h2 := stored_searchP (c := []) (A := .leaf) (B := .leaf) ht st hs hki fuel (by simp [Around.plug, Shape.ids]; omega)
    obtain ⟨⟨n, en, n1, n2, _⟩, _⟩ := st.tree.linked
    have n1' : n.left = none := n1
    have n2' : n.right = none := n2
    have hrun' := hrun fuel
    refine ⟨?_, .inr ⟨x, _, n, h2, getNode_ok en, n1', n2'⟩⟩
    simp only [bstDelete, bstDeleteInfo, h2, ok_bind, getNode_ok en, delCases, n1', n2', Around.up, hrun']
  | leaf f c x E1 E2 k d ks hl hp =>
    have hent := st.ent
    rw [Around.ids_plug] at hent
    simp only [Shape.ids, List.append_assoc, List.cons_append, List.nil_append] at hent
    obtain ⟨A1, A2, e, a1, a2⟩ := Ent.append_iff.mp hent
    obtain ⟨b, B2, rfl, b1, b2⟩ := Ent.cons_iff.mp a2
    obtain ⟨rfl, e'⟩ := List.append_inj e (by rw [← hl, a1.length])
    cases e'
    have hki := keyOf_entry b1
    have he : Ent t.at (Around.plug (f :: c) .leaf).ids (E1 ++ E2) := by
      rw [Around.ids_plug]
      simp only [Shape.ids, List.append_nil]
      exact Ent.append_iff.mpr ⟨E1, E2, rfl, a1, b2⟩
    have hn0 : ((E1 ++ (k, d) :: E2).map (·.1)).Nodup := by
      rw [List.Nodup, List.pairwise_map]
      refine hs.imp ?_
      intro a b hab he
      rw [he] at hab
      exact ht.irrefl _ hab
    have hn : ((E1 ++ E2).map (·.1)).Nodup := by
      refine hn0.sublist (List.Sublist.map _ ?_)
      exact List.Sublist.append_left (List.sublist_cons_self _ _) E1
    obtain ⟨t1, t3, ρ, e1, e3, st3, z3, n3, o3, c3⟩ := leaf_cut st he hn hn0
    have hfil : (E1 ++ (k, d) :: E2).filter (fun e => e.1 ≠ k) = E1 ++ E2 := filter_key ht hs
    rw [hfil]
    refine ⟨t3, .inr ⟨_, st3, sorted_drop hs, by rw [o3, ho], hp.rename ρ⟩, (Around.plug (f :: c) (.node .leaf x .leaf)).ids.length + 2, fun fuel hf => ?_⟩
    have h2 := stored_searchP ht st hs hki fuel (by omega)
    obtain ⟨n, en, n1, n2, _⟩ := st.tree.node
    have n1' : n.left = none := n1
    have n2' : n.right = none := n2
    have hup : Around.up (f :: c) = some f.idx := rfl
    refine ⟨?_, .inr ⟨x, _, n, h2, getNode_ok en, n1', n2'⟩⟩
    simp only [bstDelete, bstDeleteInfo, h2, ok_bind, getNode_ok en, delCases, n1', n2', hup, delLeaf, e1, e3, updateSize_off (t := t3) (by rw [o3, ho])]

/-! ## Histories -/

/-- The tree holds the entries `D`, whose keys can be taken off in the order `ks`. -/
def PeelHas (lt : κ → κ → Bool) (t : BTree κ δ) (D : List (κ × Option δ)) (ks : List κ) : Prop :=
  D = [] ∧ ks = [] ∧ Cleared t ∨ ∃ E T, E.Perm D ∧ Peelable lt t T E ks

theorem PeelHas.bstHas {lt : κ → κ → Bool} {t : BTree κ δ} {D : List (κ × Option δ)} {ks : List κ} (h : PeelHas lt t D ks) : BstHas lt t D := by
  rcases h with ⟨rfl, _, hc⟩ | ⟨E, T, hp, h⟩
  · exact ⟨[], .refl _, .inl ⟨rfl, hc⟩⟩
  · exact ⟨E, hp, .inr ⟨T, h.holding⟩⟩

theorem peel_deletes {lt : κ → κ → Bool} (ht : StrictTotal (ltRel lt)) : ∀ (dels : List κ) (ks : List κ) (t : BTree κ δ) (D : List (κ × Option δ)),
    PeelHas lt t D ks → LastFirst ks dels →
    ∃ t' ks', PeelHas lt t' (bstContents D (deletesOf dels)) ks' ∧ EndsWith (fun n => bstRun lt n t (deletesOf dels)) (.ok (t', bstReturns D (deletesOf dels))) ∧
      ∃ n0, ∀ fuel, n0 ≤ fuel → FindLeaves lt fuel t dels := by
  intro dels
  induction dels with
  | nil => intro ks t D h _; exact ⟨t, ks, h, ⟨0, fun _ _ => rfl⟩, 0, fun _ _ => trivial⟩
  | cons k dels ih =>
    intro ks t D h hl
    obtain ⟨hne, hl⟩ := hl
    rcases h with ⟨_, hks, _⟩ | ⟨E, T, hp, h⟩
    · exact absurd hks hne
    have key : ∃ t1 ks1, PeelHas lt t1 (bstSpec D (.delete k)) ks1 ∧ LastFirst ks1 dels ∧
        ∃ n0, ∀ fuel, n0 ≤ fuel → bstDelete lt fuel t k = .ok (t1, bstReturn D (.delete k)) ∧ FindsLeaf lt fuel t k := by
      rcases hl with ⟨hk, hl⟩ | ⟨hk, hl⟩
      · have hk' : ¬ Has D k := by rw [has_perm hp, ← h.peel.mem]; exact hk
        obtain ⟨n0, hrun⟩ := bstDelete_absent ht h.holding (k := k) (fun d hd => hk' ((has_perm hp k).mpr ⟨d, hd⟩))
        have hret : bstReturn D (.delete k) = false := Bool.eq_false_iff.mpr (mt (has_iff (D := D) (k := k)).mp hk')
        refine ⟨t, ks, .inr ⟨E, T, ?_, h⟩, hl, n0, fun fuel hf => by rw [hret]; exact ⟨hrun fuel hf, findsLeaf_absent (hrun fuel hf)⟩⟩
        simp only [bstSpec, filter_absent hk']; exact hp
      · cases ks with
        | nil => cases hk
        | cons k' ks =>
          simp only [List.head?_cons, Option.some.injEq] at hk
          subst hk
          have hk' : Has D k' := by rw [has_perm hp, ← h.peel.mem]; simp
          have hret : bstReturn D (.delete k') = true := has_iff.mpr hk'
          obtain ⟨t', hor, n0, hrun⟩ := h.delete ht
          refine ⟨t', ks, ?_, hl, n0, fun fuel hf => by rw [hret]; exact hrun fuel hf⟩
          rcases hor with ⟨rfl, hc⟩ | ⟨T', h'⟩
          · refine .inl ⟨?_, rfl, hc⟩
            have hpl := h.peel
            have hE : E.filter (fun e => e.1 ≠ k') = [] := by
              refine List.filter_eq_nil_iff.mpr fun a ha => ?_
              have : a.1 ∈ [k'] := (hpl.mem a.1).mpr ⟨a.2, ha⟩
              simpa using this
            have := hp.filter (fun e => decide (e.1 ≠ k'))
            rw [hE] at this
            exact List.nil_perm.mp this
          · exact .inr ⟨_, T', hp.filter _, h'⟩
    obtain ⟨t1, ks1, h1, hl1, n1, r1⟩ := key
    obtain ⟨t2, ks2, h2, ⟨n2, r2⟩, n3, r3⟩ := ih ks1 t1 _ h1 hl1
    refine ⟨t2, ks2, h2, ⟨max n1 n2, fun fuel hf => ?_⟩, max n1 n3, fun fuel hf => ⟨(r1 fuel (by omega)).2, fun r hr => ?_⟩⟩
    case refine_2 =>
      rw [(r1 fuel (by omega)).1] at hr
      cases hr
      exact r3 fuel (by omega)
    have e1 := (r1 fuel (by omega)).1
    have e2 := r2 fuel (by omega)
    have e2' : bstRun lt fuel t1 (List.map (fun k => BstOp.delete k) dels) = .ok (t2, bstReturns (bstSpec D (.delete k)) (List.map (fun k => BstOp.delete k) dels)) := e2
    simp only [deletesOf, List.map_cons, bstRun, bstStep, e1, e2', ok_bind, bstReturns]

theorem peel_inserts {lt : κ → κ → Bool} (ht : StrictTotal (ltRel lt)) : ∀ (ins : List (κ × Option δ)) (ks : List κ) (t : BTree κ δ) (D : List (κ × Option δ)),
    PeelHas lt t D ks → FullOf t D.length → (D = [] → t = btEmpty false) → (ins.map (·.1)).Nodup → (∀ e ∈ ins, e.1 ∉ ks) →
    ∃ t', PeelHas lt t' (bstContents D (insertsOf ins)) ((ins.map (·.1)).reverse ++ ks) ∧
      EndsWith (fun n => bstRun lt n t (insertsOf ins)) (.ok (t', bstReturns D (insertsOf ins))) := by
  intro ins
  induction ins with
  | nil => intro ks t D h _ _ _ _; exact ⟨t, h, 0, fun _ _ => rfl⟩
  | cons e ins ih =>
    intro ks t D h hf hD hnd hab
    simp only [List.map_cons, List.nodup_cons] at hnd
    have hek := hab e (by simp)
    have key : ∃ t1, PeelHas lt t1 (bstSpec D (.insert e.1 e.2)) (e.1 :: ks) ∧ FullOf t1 (bstSpec D (.insert e.1 e.2)).length ∧
        ∃ n0, ∀ fuel, n0 ≤ fuel → bstInsert lt fuel t e.1 e.2 = .ok t1 := by
      rcases h with ⟨rfl, rfl, hc⟩ | ⟨E, T, hp, h⟩
      · have hD := hD rfl
        subst hD
        refine ⟨{ btEmpty false with arr := [some { key := some e.1, data := e.2, isRoot := true }] }, .inr ⟨[e], .node .leaf 0 .leaf, .refl _, ?_⟩, hf, 0, fun fuel _ => rfl⟩
        refine ⟨⟨⟨rfl, ⟨⟨_, rfl, rfl, rfl, fun _ => rfl⟩, trivial, trivial⟩, by simp [Shape.ids]⟩, rfl, ?_, ?_, fun _ => ?_, ?_, ?_, rfl⟩, by simp, rfl, .last 0 e.1 e.2⟩
        · intro i hi
          cases i with
          | zero => simp [Shape.ids]
          | succ i => simp [BTree.at] at hi
        · intro i hi; simp only [Shape.ids, List.nil_append, List.mem_singleton] at hi; subst hi; simp [btEmpty]
        · simp [Shape.ids, btEmpty]
        · simp [btEmpty]
        · simp [btEmpty]
      · have hk' : ¬ Has D e.1 := by rw [has_perm hp, ← h.peel.mem]; exact hek
        have hf' : FullOf t E.length := by rw [hp.length_eq]; exact hf
        obtain ⟨t', T', E', h1, h2, h3, hrun⟩ := h.insert ht hek e.2 hf'
        have hperm : E'.Perm (bstSpec D (.insert e.1 e.2)) := by
          simp only [bstSpec, filter_absent hk']
          exact h2.trans (hp.cons _)
        exact ⟨t', .inr ⟨E', T', hperm, h1⟩, by rw [← hperm.length_eq]; exact h3, hrun⟩
    obtain ⟨t1, h1, f1, n1, r1⟩ := key
    obtain ⟨t2, h2, n2, r2⟩ := ih (e.1 :: ks) t1 _ h1 f1 (by intro h; simp [bstSpec] at h) hnd.2 (by
      intro a ha hm
      rcases List.mem_cons.mp hm with hm | hm
      · exact hnd.1 (List.mem_map.mpr ⟨a, ha, hm⟩)
      · exact hab a (by simp [ha]) hm)
    refine ⟨t2, ?_, max n1 n2, fun fuel hf => ?_⟩
    case refine_1 =>
      have e : ((e :: ins).map (·.1)).reverse ++ ks = (ins.map (·.1)).reverse ++ e.1 :: ks := by simp
      rw [e]; exact h2
    have e1 := r1 fuel (by omega)
    have e2 := r2 fuel (by omega)
    have e2' : bstRun lt fuel t1 (List.map (fun e => BstOp.insert e.1 e.2) ins) =
      .ok (t2, bstReturns (bstSpec D (.insert e.1 e.2)) (List.map (fun e => BstOp.insert e.1 e.2) ins)) := e2
    simp only [insertsOf, List.map_cons, bstRun, bstStep, e1, e2', ok_bind, bstReturns, bstReturn]

/-- **C73** for different keys, inserted in any order and then deleted in the opposite order, down to the empty tree, across every contraction of the array;
`delete` may also be called for keys that are not there. Missing: see `C73_full_false`. -/
theorem C73_last_first_partial {lt : κ → κ → Bool} (ht : StrictTotal (ltRel lt)) (ins : List (κ × Option δ)) (hd : (ins.map (·.1)).Nodup)
    (dels : List κ) (hl : LastFirst (ins.map (·.1)).reverse dels) :
    ∃ t, EndsWith (fun n => bstRun lt n (btEmpty false) (insertsOf ins ++ deletesOf dels)) (.ok (t, bstReturns [] (insertsOf ins ++ deletesOf dels))) ∧
      ServesEntries lt t (bstContents [] (insertsOf ins ++ deletesOf dels)) := by
  obtain ⟨t1, h1, n1, r1⟩ := peel_inserts ht ins [] (btEmpty false) [] (.inl ⟨rfl, rfl, Cleared.empty⟩) fullOf_empty (fun _ => rfl) hd (by simp)
  obtain ⟨t2, ks, h2, ⟨n2, r2⟩, _⟩ := peel_deletes ht dels _ t1 _ h1 (by simpa using hl)
  refine ⟨t2, ⟨max n1 n2, fun n hn => ?_⟩, ?_⟩
  · have e1 := r1 n (by omega)
    have e2 := r2 n (by omega)
    dsimp only at e1 e2 ⊢
    rw [bstRun_append, e1, ok_bind, e2, ok_bind, bstReturns_append]
  · have := h2.bstHas.serves ht
    unfold bstContents at this ⊢
    rw [List.foldl_append]
    exact this

/-- All the keys can be deleted in this order. -/
theorem lastFirst_all : ∀ ks : List κ, LastFirst ks ks
  | [] => trivial
  | k :: ks => ⟨by simp, .inr ⟨rfl, lastFirst_all ks⟩⟩

/-- Eight keys in an array of 15 cells; after five deletions only three are left, and the array contracts (to seven cells). -/
example : EndsWith (fun n => (bstRun (fun a b : Nat => decide (a < b)) n (btEmpty false : BTree Nat String)
    (insertsOf [(4, none), (2, some "x"), (6, none), (1, none), (3, none), (5, none), (7, none), (8, none)] ++ deletesOf [9, 8, 7, 5, 3, 1])).map
      fun r => (r.1.arr.length, r.2)) (.ok (7, [false, false, false, false, false, false, false, false, false, true, true, true, true, true])) := by
  refine ⟨30, fun n hn => ?_⟩
  obtain ⟨m, rfl⟩ : ∃ m, n = m + 30 := ⟨n - 30, by omega⟩
  rfl
example : LastFirst ([4, 2, 6, 1, 3, 5, 7, 8].reverse) [9, 8, 7, 5, 3, 1] := by
  simp [LastFirst]

end Props
