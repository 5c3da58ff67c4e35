import Verif.Model.Splay
import Verif.Props.Cartesian
import Verif.Props.RedBlack

/-!
# C79: splay trees built by insertions
-/
namespace Props
open Py Model Spec
set_option linter.unusedSectionVars false
variable {κ δ : Type} [DecidableEq κ]

/-! ## One splay -/

theorem splay_step_end {t t' : BTree κ δ} {x p : Nat} {n : BNode κ δ} {q : Option Nat} (hb : splayBody x (t, some p) = .ok (t', q)) (hn : t.at x = some n)
    (hp : n.parent = some p) (fuel : Nat) :
    whileLoop (fuel + 1) (splayCond x) (splayBody x) (t, some p) = whileLoop fuel (splayCond x) (splayBody x) (t', q) := by
  refine while_step fuel ?_ hb
  simp [splayCond, getNode_ok hn, hp]

/-- The loop of `splay` brings the node to the root. -/
theorem splay_loop : ∀ (m : Nat) (c : Around) (t : BTree κ δ) (A B : Shape) (i : Nat), c.length ≤ m → TreeAt true t (Around.plug c (.node A i B)) →
    ∃ A' B' t', (Shape.node A' i B').ids = (Around.plug c (.node A i B)).ids ∧ TreeAt true t' (.node A' i B') ∧ SameRest t t' ∧ SameContent t.at t'.at ∧
      ∀ fuel > c.length, whileLoop fuel (splayCond i) (splayBody i) (t, Around.up c) = .ok (t', none) := by
  intro m
  induction m using Nat.strongRecOn with
  | ind m ih =>
    intro c t A B i hm h
    obtain ⟨n, en, n1, n2, n3⟩ := h.node
    match c, hm with
    | [], _ =>
      refine ⟨A, B, t, rfl, h, .refl t, .refl _, fun fuel hf => ?_⟩
      obtain ⟨f, rfl⟩ : ∃ f, fuel = f + 1 := ⟨fuel - 1, by omega⟩
      refine while_stop _ ?_
      simp only [splayCond, getNode_ok en, ok_bind, n3, Around.up]
      rfl
    | [.inL p C], _ =>
      have h' : TreeAt true t (Around.plug [] (.node (.node A i B) p C)) := h
      obtain ⟨np, ep, p1, p2, p3⟩ := h'.node
      obtain ⟨t1, e1, h1, r1, s1⟩ := rightRotate_spec h'
      obtain ⟨n', en', _, _, n3'⟩ := h1.node
      refine ⟨A, .node B p C, t1, by simp [Around.plug, Shape.ids], h1, r1, s1, fun fuel hf => ?_⟩
      obtain ⟨f, rfl⟩ : ∃ f, fuel = f + 2 := ⟨fuel - 2, by simp at hf; omega⟩
      have hb : splayBody i (t, some p) = .ok (t1, none) := by
        have q1 : np.left = some i := p1
        have q3 : np.parent = none := p3
        have q4 : n'.parent = none := n3'
        simp only [splayBody, asIdx, getNode_ok ep, ok_bind, q3, zig, q1, if_true, e1, getNode_ok en', q4]
      rw [show Around.up [Frame.inL p C] = some p from rfl, splay_step_end hb en n3]
      refine while_stop _ ?_
      have q4 : n'.parent = none := n3'
      simp [splayCond, getNode_ok en', q4]
    | [.inR C p], _ =>
      have h' : TreeAt true t (Around.plug [] (.node C p (.node A i B))) := h
      obtain ⟨np, ep, p1, p2, p3⟩ := h'.node
      obtain ⟨t1, e1, h1, r1, s1⟩ := leftRotate_spec h'
      obtain ⟨n', en', _, _, n3'⟩ := h1.node
      have hne : np.left ≠ some i := by
        rw [p1]
        have hi := h.fresh
        simp only [Around.before, Around.after, List.mem_append, List.mem_cons, not_or] at hi
        exact root_ne (by simp_all)
      refine ⟨.node C p A, B, t1, by simp [Around.plug, Shape.ids], h1, r1, s1, fun fuel hf => ?_⟩
      obtain ⟨f, rfl⟩ : ∃ f, fuel = f + 2 := ⟨fuel - 2, by simp at hf; omega⟩
      have q3 : np.parent = none := p3
      have q4 : n'.parent = none := n3'
      have hb : splayBody i (t, some p) = .ok (t1, none) := by
        simp only [splayBody, asIdx, getNode_ok ep, ok_bind, q3, zig, if_neg hne, e1, getNode_ok en', q4]
      rw [show Around.up [Frame.inR C p] = some p from rfl, splay_step_end hb en n3]
      refine while_stop _ ?_
      simp [splayCond, getNode_ok en', q4]
    | .inL p C :: .inL g D :: c, hm =>
      have h' : TreeAt true t (Around.plug (.inL g D :: c) (.node (.node A i B) p C)) := h
      have h'' : TreeAt true t (Around.plug c (.node (.node (.node A i B) p C) g D)) := h
      obtain ⟨np, ep, p1, p2, p3⟩ := h'.node
      obtain ⟨ng, eg, g1, g2, g3⟩ := h''.node
      obtain ⟨t1, e1, h1, r1, s1⟩ := rightRotate_spec h''
      obtain ⟨t2, e2, h2, r2, s2⟩ := rightRotate_spec (A := A) (k := i) (B := B) (j := p) (C := .node C g D) h1
      obtain ⟨n', en', _, _, n3'⟩ := h2.node
      have hb : splayBody i (t, some p) = .ok (t2, Around.up c) := by
        have q1 : np.left = some i := p1
        have q3 : np.parent = some g := p3
        have q4 : ng.left = some p := g1
        simp only [splayBody, asIdx, getNode_ok ep, ok_bind, q3, q1, getNode_ok eg, q4, and_self, if_true, zigZig, e1, e2, getNode_ok en', n3']
      obtain ⟨A', B', t', x1, x2, x3, x4, x5⟩ := ih c.length (by simp at hm; omega) c t2 _ _ i (Nat.le_refl _) h2
      refine ⟨A', B', t', ?_, x2, r1.trans (r2.trans x3), s1.trans (s2.trans x4), fun fuel hf => ?_⟩
      · rw [x1, Around.ids_plug, Around.ids_plug]; simp [Around.before, Around.after, Shape.ids]
      · obtain ⟨f, rfl⟩ : ∃ f, fuel = f + 1 := ⟨fuel - 1, by omega⟩
        exact (splay_step_end hb en n3 f).trans (x5 f (by simp at hf; omega))
    | .inR C p :: .inR D g :: c, hm =>
      have h' : TreeAt true t (Around.plug (.inR D g :: c) (.node C p (.node A i B))) := h
      have h'' : TreeAt true t (Around.plug c (.node D g (.node C p (.node A i B)))) := h
      obtain ⟨np, ep, p1, p2, p3⟩ := h'.node
      obtain ⟨ng, eg, g1, g2, g3⟩ := h''.node
      obtain ⟨t1, e1, h1, r1, s1⟩ := leftRotate_spec h''
      obtain ⟨t2, e2, h2, r2, s2⟩ := leftRotate_spec (A := B) (k := i) (B := A) (j := p) (C := .node D g C) h1
      obtain ⟨n', en', _, _, n3'⟩ := h2.node
      have hne : np.left ≠ some i := by
        rw [p1]
        have hi := h.fresh
        simp only [Around.before, Around.after, List.mem_append, List.mem_cons, not_or] at hi
        exact root_ne (by simp_all)
      have hb : splayBody i (t, some p) = .ok (t2, Around.up c) := by
        have q1 : np.right = some i := p2
        have q3 : np.parent = some g := p3
        have q4 : ng.right = some p := g2
        simp only [splayBody, asIdx, getNode_ok ep, ok_bind, q3, q1, getNode_ok eg, q4, hne, false_and, if_false, and_self, if_true, zagZag, e1, e2, getNode_ok en', n3']
      obtain ⟨A', B', t', x1, x2, x3, x4, x5⟩ := ih c.length (by simp at hm; omega) c t2 _ _ i (Nat.le_refl _) h2
      refine ⟨A', B', t', ?_, x2, r1.trans (r2.trans x3), s1.trans (s2.trans x4), fun fuel hf => ?_⟩
      · rw [x1, Around.ids_plug, Around.ids_plug]; simp [Around.before, Around.after, Shape.ids]
      · obtain ⟨f, rfl⟩ : ∃ f, fuel = f + 1 := ⟨fuel - 1, by omega⟩
        exact (splay_step_end hb en n3 f).trans (x5 f (by simp at hf; omega))
    | .inL p C :: .inR D g :: c, hm =>
      have h' : TreeAt true t (Around.plug (.inR D g :: c) (.node (.node A i B) p C)) := h
      have h'' : TreeAt true t (Around.plug c (.node D g (.node (.node A i B) p C))) := h
      obtain ⟨np, ep, p1, p2, p3⟩ := h'.node
      obtain ⟨ng, eg, g1, g2, g3⟩ := h''.node
      obtain ⟨t2, e2, h2, r2, s2⟩ := rightLeftRotate_spec h''
      obtain ⟨n', en', _, _, n3'⟩ := h2.node
      have hne : np.right ≠ some i := by
        rw [p2]
        have hi := h.fresh
        simp only [Around.before, Around.after, List.mem_append, List.mem_cons, not_or] at hi
        exact root_ne (by simp_all)
      have hne2 : ng.left ≠ some p := by
        rw [g1]
        have hi := h'.fresh
        simp only [Around.before, Around.after, List.mem_append, List.mem_cons, not_or] at hi
        exact root_ne (by simp_all)
      have hb : splayBody i (t, some p) = .ok (t2, Around.up c) := by
        have q1 : np.left = some i := p1
        have q3 : np.parent = some g := p3
        have q4 : ng.right = some p := g2
        simp only [splayBody, asIdx, getNode_ok ep, ok_bind, q3, q1, getNode_ok eg, q4, hne, hne2, and_false, false_and, if_false, and_self, if_true, e2, getNode_ok en', n3']
      obtain ⟨A', B', t', x1, x2, x3, x4, x5⟩ := ih c.length (by simp at hm; omega) c t2 _ _ i (Nat.le_refl _) h2
      refine ⟨A', B', t', ?_, x2, r2.trans x3, s2.trans x4, fun fuel hf => ?_⟩
      · rw [x1, Around.ids_plug, Around.ids_plug]; simp [Around.before, Around.after, Shape.ids]
      · obtain ⟨f, rfl⟩ : ∃ f, fuel = f + 1 := ⟨fuel - 1, by omega⟩
        exact (splay_step_end hb en n3 f).trans (x5 f (by simp at hf; omega))
    | .inR C p :: .inL g D :: c, hm =>
      have h' : TreeAt true t (Around.plug (.inL g D :: c) (.node C p (.node A i B))) := h
      have h'' : TreeAt true t (Around.plug c (.node (.node C p (.node A i B)) g D)) := h
      obtain ⟨np, ep, p1, p2, p3⟩ := h'.node
      obtain ⟨ng, eg, g1, g2, g3⟩ := h''.node
      obtain ⟨t2, e2, h2, r2, s2⟩ := leftRightRotate_spec h''
      obtain ⟨n', en', _, _, n3'⟩ := h2.node
      have hne : np.left ≠ some i := by
        rw [p1]
        have hi := h.fresh
        simp only [Around.before, Around.after, List.mem_append, List.mem_cons, not_or] at hi
        exact root_ne (by simp_all)
      have hne2 : ng.right ≠ some p := by
        rw [g2]
        have hi := h'.fresh
        simp only [Around.before, Around.after, List.mem_append, List.mem_cons, not_or] at hi
        exact root_ne (by simp_all)
      have hb : splayBody i (t, some p) = .ok (t2, Around.up c) := by
        have q3 : np.parent = some g := p3
        simp only [splayBody, asIdx, getNode_ok ep, ok_bind, q3, getNode_ok eg, hne, hne2, and_false, false_and, if_false, e2, getNode_ok en', n3']
      obtain ⟨A', B', t', x1, x2, x3, x4, x5⟩ := ih c.length (by simp at hm; omega) c t2 _ _ i (Nat.le_refl _) h2
      refine ⟨A', B', t', ?_, x2, r2.trans x3, s2.trans x4, fun fuel hf => ?_⟩
      · rw [x1, Around.ids_plug, Around.ids_plug]; simp [Around.before, Around.after, Shape.ids]
      · obtain ⟨f, rfl⟩ : ∃ f, fuel = f + 1 := ⟨fuel - 1, by omega⟩
        exact (splay_step_end hb en n3 f).trans (x5 f (by simp at hf; omega))


/-! ## One insertion -/

/-- The state after a history of insertions whose last one was of the key `last`: that key is at the root. -/
inductive SplayState (lt : κ → κ → Bool) (os : Bool) (t : BTree κ δ) (m : κ → Option (Option δ)) (last : Option κ) : Prop where
  | empty (h : t = btEmpty os) (hm : ∀ k, m k = none) (hl : last = none)
  | tree (A : Shape) (i : Nat) (B : Shape) (k : κ) (ok : BstOk lt t (.node A i B)) (car : Carries t (.node A i B) m) (hi : i + 1 = t.top)
      (hk : keyOf t.at i = some k) (hl : last = some k)

/-- Everything `insert` does after `super().insert`. -/
def splayFinish (lt : κ → κ → Bool) (fuel : Nat) (t : BTree κ δ) (k : κ) : PyM (BTree κ δ) := do
  let (e, p) ← searchPair lt fuel t k
  let t ← modNode t (t.size - 1) (fun n => { n with parent := p })
  let e ← asIdx e
  splay fuel t e p

theorem splayInsert_eq {lt : κ → κ → Bool} {fuel : Nat} {t t1 : BTree κ δ} {k : κ} {d : Option δ} (h1 : bstInsert lt fuel t k d = .ok t1) :
    splayInsert lt fuel t k d = splayFinish lt fuel t1 k := by
  simp only [splayInsert, splayFinish, h1, ok_bind]

/-- `search(key, parent=True)` for a key that is present. -/
theorem searchP_at {lt : κ → κ → Bool} (ht : StrictTotal (ltRel lt)) {t : BTree κ δ} {T : Shape} (ok : BstOk lt t T) {i : Nat} {k : κ} (hi : i ∈ T.ids)
    (hk : keyOf t.at i = some k) : ∃ c A B, T = Around.plug c (.node A i B) ∧
      ∀ fuel > T.ids.length + 1, searchPair lt fuel t k = .ok (some i, Around.up c) := by
  obtain ⟨c, S, rfl, hF, hrun⟩ := searchP_spec ht ok.tree ok.srt k
  have hdep := Shape.depth_le (Around.plug c S)
  rcases hF.here with rfl | ⟨l, i', r, rfl, hi'⟩
  · exact absurd hk (hF.absent ht i hi)
  · have : i' = i := ok.srt.inj ht (by rw [Around.ids_plug]; simp [Shape.ids]) hi hi' hk
    subst this
    refine ⟨c, l, r, rfl, fun fuel hf => ?_⟩
    simp only [searchPair, hrun fuel (by omega), ok_bind, root_node]

theorem splay_finish {lt : κ → κ → Bool} (ht : StrictTotal (ltRel lt)) {os : Bool} {t : BTree κ δ} {T : Shape} {m : κ → Option (Option δ)} {i : Nat} {k : κ}
    (ok : BstOk lt t T) (car : Carries t T m) (hi : i + 1 = t.top) (hk : keyOf t.at i = some k) (him : i ∈ T.ids) :
    ∃ t', SplayState lt os t' m (some k) ∧ ∀ fuel > T.ids.length + 1, splayFinish lt fuel t k = .ok t' := by
  obtain ⟨c, A, B, rfl, hrun⟩ := searchP_at ht ok him hk
  obtain ⟨n, en, n1, n2, n3⟩ := ok.tree.node
  obtain ⟨t1, e1, a1, r1, q1⟩ := modNode_spec (t := t) (i := i) (fun n => { n with parent := Around.up c }) (by rw [en]; rfl)
  have hsame : t1.at = t.at := by
    rw [a1]; funext j; unfold mapAt
    split
    · next h => subst h; rw [en, ← n3]; rfl
    · rfl
  have E1 : SameEntries t t1 := ⟨r1, fun j => by rw [hsame], fun j => by rw [hsame]⟩
  have T1 : TreeAt true t1 (Around.plug c (.node A i B)) := ⟨by rw [q1]; exact ok.tree.root, by rw [hsame]; exact ok.tree.linked, ok.tree.nodup⟩
  obtain ⟨A', B', t2, x1, x2, x3, x4, x5⟩ := splay_loop c.length c t1 A B i (Nat.le_refl _) T1
  have E2 : SameEntries t1 t2 := SameContent.entries x3 x4
  have ok1 := E1.bstOk ok T1 rfl
  have car1 := E1.carries (T' := Around.plug c (.node A i B)) rfl car
  have hlen := around_length (c := c) (S := .node A i B) rfl
  refine ⟨t2, .tree A' i B' k (E2.bstOk ok1 x2 x1) (E2.carries x1 car1) ?_ ?_ rfl, fun fuel hf => ?_⟩
  · rw [E2.rest.top, E1.rest.top]; exact hi
  · rw [E2.keyOf, hsame]; exact hk
  · have hsz : t.size - 1 = i := by rw [ok.size_top]; omega
    simp only [splayFinish, hrun fuel hf, ok_bind, hsz, e1, asIdx, splay, x5 fuel (by simp [Shape.ids] at hlen; omega)]

theorem splayState_insert {lt : κ → κ → Bool} (ht : StrictTotal (ltRel lt)) {os : Bool} {t : BTree κ δ} {m : κ → Option (Option δ)} {last : Option κ}
    (h : SplayState lt os t m last) (k : κ) (d : Option δ) (hf : m k = none ∨ last = some k) :
    ∃ t', SplayState lt os t' (fun k' => if k' = k then some d else m k') (some k) ∧ ∃ n0, ∀ fuel, n0 ≤ fuel → splayInsert lt fuel t k d = .ok t' := by
  cases h with
  | empty h hm hl =>
    subst h
    obtain ⟨t', h1, h2⟩ := splay_finish (os := os) ht (btFirst_ok (δ := δ) lt os k d) (carries_first os k d hm) (i := 0) (k := k) rfl rfl (by simp [Shape.ids])
    exact ⟨t', h1, 3, fun fuel hf => (splayInsert_eq (bstInsert_first os k d)).trans (h2 fuel (by simp [Shape.ids]; omega))⟩
  | tree A j B k0 ok car hj hk0 hl =>
    rcases bstInsert_spec ht ok k d with ⟨i, t1, hi, hk, hr, hrun⟩ | ⟨f, c, t1, hT, habs, hI, hrun⟩
    · have hkk : k0 = k := by
        rcases hf with hf | hf
        · obtain ⟨n, en⟩ := Option.isSome_iff_exists.mp (linked_isSome ok.tree.linked i hi)
          have := (car k n.data).mpr ⟨i, hi, n, en, by simpa [keyOf, en] using hk, rfl⟩
          rw [hf] at this; cases this
        · rw [hl] at hf; exact Option.some.inj hf
      subst hkk
      have hij : i = j := ok.srt.inj ht hi (by simp [Shape.ids]) hk hk0
      subst hij
      obtain ⟨t', h1, h2⟩ := splay_finish (os := os) ht (hr.bstOk ok) (hr.carries ht ok hi hk car) (i := i) (k := k0)
        (by rw [hr.rest.top]; exact hj) (by rw [hr.sameKey, hk]) hi
      exact ⟨t', h1, (Shape.node A i B).ids.length + 2, fun fuel hf => (splayInsert_eq (hrun fuel (by omega))).trans (h2 fuel (by omega))⟩
    · rw [hT] at ok car habs hrun
      obtain ⟨s, hs⟩ := hI.new
      obtain ⟨t', h1, h2⟩ := splay_finish (os := os) ht hI.ok (hI.carries ok habs car) (i := t.top) (k := k) hI.top.symm (by simp [keyOf, hs])
        (by rw [Around.ids_plug]; simp [Shape.ids])
      have hlen : (Around.plug (f :: c) (.node .leaf t.top .leaf)).ids.length = (Around.plug (f :: c) .leaf).ids.length + 1 := by
        rw [Around.ids_plug, Around.ids_plug]; simp [Shape.ids]; omega
      exact ⟨t', h1, (Around.plug (f :: c) .leaf).ids.length + 3, fun fuel hf => (splayInsert_eq (hrun fuel (by omega))).trans (h2 fuel (by omega))⟩

/-! ## Histories -/

/-- A history of `SplayTree.insert(key, data)` calls. -/
def splayInserts (lt : κ → κ → Bool) (fuel : Nat) (t : BTree κ δ) (ops : List (κ × Option δ)) : PyM (BTree κ δ) :=
  ops.foldlM (fun t op => splayInsert lt fuel t op.1 op.2) t

/-- The only key of a history that is inserted again is the one inserted just before. -/
def SplayFine : List κ → List κ → Prop
  | _, [] => True
  | seen, k :: ks => (k ∉ seen ∨ seen.head? = some k) ∧ SplayFine (k :: seen) ks

theorem splayState_history {lt : κ → κ → Bool} (ht : StrictTotal (ltRel lt)) {os : Bool} : ∀ (ops : List (κ × Option δ)) (t : BTree κ δ)
    (m : κ → Option (Option δ)) (seen : List κ), SplayState lt os t m seen.head? → (∀ k, (m k).isSome → k ∈ seen) → SplayFine seen (ops.map (·.1)) →
    ∃ t', SplayState lt os t' (fun k => (lastData ops k).or (m k)) ((ops.map (·.1)).reverse ++ seen).head? ∧
      ∃ n0, ∀ fuel, n0 ≤ fuel → splayInserts lt fuel t ops = .ok t' := by
  intro ops
  induction ops with
  | nil => intro t m seen h _ _; exact ⟨t, by simpa [lastData] using h, 0, fun _ _ => rfl⟩
  | cons op ops ih =>
    intro t m seen h hm hf
    obtain ⟨hf1, hf2⟩ := hf
    obtain ⟨t1, h1, n1, r1⟩ := splayState_insert ht h op.1 op.2 (by
      rcases hf1 with hf1 | hf1
      · left
        cases e : m op.1 with
        | none => rfl
        | some x => exact absurd (hm _ (by rw [e]; rfl)) hf1
      · exact .inr hf1)
    obtain ⟨t2, h2, n2, r2⟩ := ih t1 _ (op.1 :: seen) h1 (by
      intro k hk
      by_cases e : k = op.1
      · simp [e]
      · rw [if_neg e] at hk; exact List.mem_cons_of_mem _ (hm k hk)) hf2
    refine ⟨t2, ?_, max n1 n2, ?_⟩
    · rw [lastData_cons_eq]
      simpa using h2
    · intro fuel hf
      have e1 := r1 fuel (by omega)
      have e2 := r2 fuel (by omega)
      unfold splayInserts at e2 ⊢
      rw [List.foldlM_cons, e1]
      exact e2

theorem splay_history {lt : κ → κ → Bool} (ht : StrictTotal (ltRel lt)) (os : Bool) (ops : List (κ × Option δ)) (hf : SplayFine [] (ops.map (·.1))) :
    ∃ t, SplayState lt os t (lastData ops) (ops.map (·.1)).getLast? ∧ EndsWith (fun n => splayInserts lt n (btEmpty os) ops) (.ok t) := by
  obtain ⟨t, h, n0, hr⟩ := splayState_history ht ops (btEmpty os) (fun _ => none) [] (.empty rfl (fun _ => rfl) rfl) nofun hf
  exact ⟨t, by simpa using h, n0, hr⟩

/-- What is claimed of a splay tree after the insertions `ops`: it is a binary tree whose root holds the key inserted last, the in-order
traversal lists the inserted keys in increasing order with the data inserted last, and `search` finds exactly those keys. -/
def SplayTreeOf (lt : κ → κ → Bool) (t : BTree κ δ) (ops : List (κ × Option δ)) : Prop :=
  (∃ T ns n, HoldsTree t t.rootIdx T ∧ EndsWith (fun n => treeDfs n t .ino none) (.ok ns) ∧ NodesAt t T.ids ns ∧ ListsKeys lt (lastData ops) ns ∧
    t.at t.rootIdx = some n ∧ n.key = (ops.map (·.1)).getLast? ∧ n.parent = none) ∧
  ∀ k, ∃ r, EndsWith (fun n => bstSearch lt n t k) (.ok r) ∧ Answers t k (lastData ops k) r

/-- The full statement: every history of insertions ends and leaves such a tree. -/
def C79_full : Prop :=
  ∀ ops : List (Nat × Option Char), ops ≠ [] → ∃ t, EndsWith (fun n => splayInserts (fun a b => decide (a < b)) n (btEmpty false) ops) (.ok t) ∧
    SplayTreeOf (fun a b => decide (a < b)) t ops

/-- The full statement is proved for the histories that insert a key again only right after inserting it. -/
theorem C79_tree_partial {lt : κ → κ → Bool} (ht : StrictTotal (ltRel lt)) (os : Bool) (ops : List (κ × Option δ)) (hne : ops ≠ [])
    (hf : SplayFine [] (ops.map (·.1))) :
    ∃ t, EndsWith (fun n => splayInserts lt n (btEmpty os) ops) (.ok t) ∧ SplayTreeOf lt t ops := by
  obtain ⟨t, hst, hrun⟩ := splay_history ht os ops hf
  cases hst with
  | empty h hm => exact absurd (ops_none hm) hne
  | tree A i B k ok car hi hk hl =>
    have hH : HoldsTree t t.rootIdx (.node A i B) := ⟨ok.tree.root, ok.tree.linked.weaken, ok.tree.nodup⟩
    obtain ⟨ns, h1, h2⟩ := inorder_map ok.tree.root ok.tree.linked.weaken ok.tree.nodup ok.srt car
    obtain ⟨ns', h3, n0, h4⟩ := C74_in_order hH
    obtain ⟨n1, h5⟩ := h1
    have e : ns = ns' := by
      have a := h5 (max n0 n1) (by omega)
      have b := h4 (max n0 n1) (by omega)
      simp only [treeDfs, Option.getD_none, Option.getD_some] at a b
      rw [a] at b
      cases b; rfl
    subst e
    obtain ⟨n, en, _, _, n3⟩ := (show TreeAt true t (Around.plug [] (.node A i B)) from ok.tree).node
    have hr := ok.tree.root
    rw [root_node, Option.some.injEq] at hr
    refine ⟨t, hrun, ⟨.node A i B, ns, n, hH, ⟨n1, h5⟩, h3, h2, by rw [← hr]; exact en, ?_, n3⟩, fun k => search_map ht ok.tree ok.srt car k⟩
    rw [hl, ← hk]; simp [keyOf, en]

/-- Histories that insert no key twice. -/
theorem splayFine_of_nodup : ∀ (ks seen : List κ), ks.Nodup → (∀ k ∈ ks, k ∉ seen) → SplayFine seen ks := by
  intro ks
  induction ks with
  | nil => intros; trivial
  | cons k ks ih =>
    intro seen h1 h2
    simp only [List.nodup_cons] at h1
    refine ⟨.inl (h2 k (by simp)), ih _ h1.2 ?_⟩
    intro x hx
    simp only [List.mem_cons, not_or]
    exact ⟨by rintro rfl; exact h1.1 hx, h2 x (by simp [hx])⟩

theorem C79_distinct_partial {lt : κ → κ → Bool} (ht : StrictTotal (ltRel lt)) (os : Bool) (ops : List (κ × Option δ)) (hne : ops ≠ [])
    (hf : (ops.map (·.1)).Nodup) :
    ∃ t, EndsWith (fun n => splayInserts lt n (btEmpty os) ops) (.ok t) ∧ SplayTreeOf lt t ops :=
  C79_tree_partial ht os ops hne (splayFine_of_nodup _ _ hf (by simp))

/-- Bounds after such a history. -/
theorem C79_bounds_partial {lt : κ → κ → Bool} (ht : StrictTotal (ltRel lt)) (os : Bool) (ops : List (κ × Option δ)) (hne : ops ≠ [])
    (hf : SplayFine [] (ops.map (·.1))) :
    ∃ t, EndsWith (fun n => splayInserts lt n (btEmpty os) ops) (.ok t) ∧ ∀ k,
      (∃ r, EndsWith (fun n => bstLower lt n t k) (.ok r) ∧ LeastOf lt (fun a => a ∈ ops.map (·.1) ∧ lt a k = false) r) ∧
      (∃ r, EndsWith (fun n => bstUpper lt n t k) (.ok r) ∧ LeastOf lt (fun a => a ∈ ops.map (·.1) ∧ lt k a = true) r) := by
  obtain ⟨t, hst, hrun⟩ := splay_history ht os ops hf
  refine ⟨t, hrun, fun k => ?_⟩
  cases hst with
  | empty h hm => exact absurd (ops_none hm) hne
  | tree A i B k0 ok car hi hk hl =>
    obtain ⟨r1, e1, h1⟩ := bound_map ht ok.tree ok.srt car false k
    obtain ⟨r2, e2, h2⟩ := bound_map ht ok.tree ok.srt car true k
    refine ⟨⟨r1, e1, ?_⟩, ⟨r2, e2, ?_⟩⟩
    · simpa only [lastData_isSome, Beyond, Bool.false_eq_true, if_false] using h1
    · simpa only [lastData_isSome, Beyond, if_true] using h2


/-! ## Inserting another present key again never succeeds -/

/-- Every node has a parent. -/
def Orphanless (t : BTree κ δ) : Prop := ∀ n, some n ∈ t.arr → n.parent.isSome

/-- Whatever the computation returns is orphanless. -/
def Keeps (x : PyM (BTree κ δ)) : Prop := ∀ t, x = .ok t → Orphanless t

theorem keeps_bind {α : Type} {x : PyM α} {g : α → PyM (BTree κ δ)} (h : ∀ a, x = .ok a → Keeps (g a)) : Keeps (x >>= g) := by
  intro t e
  cases x with
  | error e' => cases e
  | ok a => exact h a rfl t e

theorem keeps_ok {t : BTree κ δ} (h : Orphanless t) : Keeps (.ok t) := by rintro _ ⟨⟩; exact h

theorem getNode_mem {t : BTree κ δ} {i : Nat} {n : BNode κ δ} (h : getNode t i = .ok n) : some n ∈ t.arr := by
  exact List.mem_of_getElem? (at_some.mp (getNode_eq_ok h))

theorem keeps_modNode {t : BTree κ δ} (h : Orphanless t) (i : Nat) {f : BNode κ δ → BNode κ δ} (hf : ∀ n, n.parent.isSome → (f n).parent.isSome) :
    Keeps (modNode t i f) := by
  refine keeps_bind fun n hn => keeps_ok ?_
  intro m hm
  rcases List.mem_or_eq_of_mem_set hm with hm | hm
  · exact h m hm
  · cases hm; exact hf n (h n (getNode_mem hn))

theorem keeps_modIf {t : BTree κ δ} (h : Orphanless t) (o : Option Nat) {f : BNode κ δ → BNode κ δ} (hf : ∀ n, n.parent.isSome → (f n).parent.isSome) :
    Keeps (modIf t o f) := by
  cases o with
  | none => exact keeps_ok h
  | some i => exact keeps_modNode h i hf

theorem keeps_relink {t : BTree κ δ} (h : Orphanless t) (p j : Nat) (o : Option Nat) : Keeps (relink t p j o) := by
  refine keeps_bind fun n _ => ?_
  split
  · exact keeps_modNode h _ (fun n hn => hn)
  · exact keeps_modNode h _ (fun n hn => hn)

theorem keeps_hoist {t : BTree κ δ} (h : Orphanless t) (p : Option Nat) (j k : Nat) : Keeps (hoist t p j k) := by
  cases p with
  | none => exact keeps_ok h
  | some p => exact keeps_relink h p j _

theorem keeps_after {f : BNode κ δ → BNode κ δ} {x : PyM (BTree κ δ)} {t : BTree κ δ} (h : (∀ n, n.parent.isSome → (f n).parent.isSome) → Keeps x) (e : x = .ok t)
    (hf : ∀ n, n.parent.isSome → (f n).parent.isSome) : Orphanless t := h hf t e

theorem keeps_rightRotate {t : BTree κ δ} (h : Orphanless t) (j k : Nat) : Keeps (rightRotate t j k) := by
  refine keeps_bind fun nk _ => keeps_bind fun t1 e1 => keeps_bind fun t2 e2 => keeps_bind fun nj e3 => keeps_bind fun t4 e4 =>
    keeps_bind fun t5 e5 => keeps_bind fun t6 e6 => ?_
  have h1 := keeps_after (keeps_modIf h _) e1 (fun _ _ => rfl)
  have h2 := keeps_after (keeps_modNode h1 _) e2 (fun _ hn => hn)
  have h4 := keeps_after (keeps_modNode h2 _) e4 (fun _ _ => h2 nj (getNode_mem e3))
  have h5 := keeps_hoist h4 _ _ _ _ e5
  have h6 := keeps_after (keeps_modNode h5 _) e6 (fun _ _ => rfl)
  exact keeps_modNode h6 _ (fun _ hn => hn)

theorem keeps_leftRotate {t : BTree κ δ} (h : Orphanless t) (j k : Nat) : Keeps (leftRotate t j k) := by
  refine keeps_bind fun nk _ => keeps_bind fun t1 e1 => keeps_bind fun t2 e2 => keeps_bind fun nj e3 => keeps_bind fun t4 e4 =>
    keeps_bind fun t5 e5 => keeps_bind fun t6 e6 => ?_
  have h1 := keeps_after (keeps_modIf h _) e1 (fun _ _ => rfl)
  have h2 := keeps_after (keeps_modNode h1 _) e2 (fun _ hn => hn)
  have h4 := keeps_after (keeps_modNode h2 _) e4 (fun _ _ => h2 nj (getNode_mem e3))
  have h5 := keeps_hoist h4 _ _ _ _ e5
  have h6 := keeps_after (keeps_modNode h5 _) e6 (fun _ _ => rfl)
  exact keeps_modNode h6 _ (fun _ hn => hn)

theorem keeps_leftRightRotate {t : BTree κ δ} (h : Orphanless t) (j k : Nat) : Keeps (leftRightRotate t j k) := by
  refine keeps_bind fun nk _ => keeps_bind fun i _ => keeps_bind fun ni _ => keeps_bind fun t1 e1 => keeps_bind fun t2 e2 => keeps_bind fun t3 e3 =>
    keeps_bind fun t4 e4 => keeps_bind fun nj e5 => keeps_bind fun t6 e6 => keeps_bind fun t7 e7 => keeps_bind fun t8 e8 => ?_
  have h1 := keeps_after (keeps_modNode h _) e1 (fun _ hn => hn)
  have h2 := keeps_after (keeps_modNode h1 _) e2 (fun _ hn => hn)
  have h3 := keeps_after (keeps_modIf h2 _) e3 (fun _ _ => rfl)
  have h4 := keeps_after (keeps_modIf h3 _) e4 (fun _ _ => rfl)
  have h6 := keeps_after (keeps_modNode h4 _) e6 (fun _ _ => h4 nj (getNode_mem e5))
  have h7 := keeps_after (keeps_modNode h6 _) e7 (fun _ _ => rfl)
  have h8 := keeps_after (keeps_modNode h7 _) e8 (fun _ _ => rfl)
  exact keeps_hoist h8 _ _ _

theorem keeps_rightLeftRotate {t : BTree κ δ} (h : Orphanless t) (j k : Nat) : Keeps (rightLeftRotate t j k) := by
  refine keeps_bind fun nk _ => keeps_bind fun i _ => keeps_bind fun ni _ => keeps_bind fun t1 e1 => keeps_bind fun t2 e2 => keeps_bind fun t3 e3 =>
    keeps_bind fun t4 e4 => keeps_bind fun nj e5 => keeps_bind fun t6 e6 => keeps_bind fun t7 e7 => keeps_bind fun t8 e8 => ?_
  have h1 := keeps_after (keeps_modNode h _) e1 (fun _ hn => hn)
  have h2 := keeps_after (keeps_modNode h1 _) e2 (fun _ hn => hn)
  have h3 := keeps_after (keeps_modIf h2 _) e3 (fun _ _ => rfl)
  have h4 := keeps_after (keeps_modIf h3 _) e4 (fun _ _ => rfl)
  have h6 := keeps_after (keeps_modNode h4 _) e6 (fun _ _ => h4 nj (getNode_mem e5))
  have h7 := keeps_after (keeps_modNode h6 _) e7 (fun _ _ => rfl)
  have h8 := keeps_after (keeps_modNode h7 _) e8 (fun _ _ => rfl)
  exact keeps_hoist h8 _ _ _

theorem splayBody_keeps {x : Nat} {t t' : BTree κ δ} {p q : Option Nat} (h : Orphanless t) (e : splayBody x (t, p) = .ok (t', q)) : Orphanless t' := by
  unfold splayBody at e
  cases p with
  | none => cases e
  | some p =>
    simp only [asIdx, ok_bind] at e
    cases e1 : getNode t p with
    | error => rw [e1] at e; cases e
    | ok n =>
      rw [e1] at e; simp only [ok_bind] at e
      obtain ⟨g, hg⟩ := Option.isSome_iff_exists.mp (h n (getNode_mem e1))
      rw [hg] at e; simp only at e
      cases e2 : getNode t g with
      | error => rw [e2] at e; cases e
      | ok m =>
        rw [e2] at e; simp only [ok_bind] at e
        have key : ∀ (r : PyM (BTree κ δ)), Keeps r → (r >>= fun t => getNode t x >>= fun n => Except.ok (t, n.parent)) = Except.ok (t', q) → Orphanless t' := by
          intro r hr e
          cases r with
          | error => cases e
          | ok t1 =>
            simp only [ok_bind] at e
            cases e3 : getNode t1 x with
            | error => rw [e3] at e; cases e
            | ok n1 => rw [e3] at e; cases e; exact hr _ rfl
        split at e
        · refine key (zigZig t x p g) ?_ e
          exact keeps_bind fun t1 e1 => keeps_rightRotate (keeps_rightRotate h _ _ _ e1) _ _
        · split at e
          · refine key (zagZag t x p g) ?_ e
            exact keeps_bind fun t1 e1 => keeps_leftRotate (keeps_leftRotate h _ _ _ e1) _ _
          · split at e
            · exact key (rightLeftRotate t g p) (keeps_rightLeftRotate h _ _) e
            · exact key (leftRightRotate t g p) (keeps_leftRightRotate h _ _) e

theorem splay_never {x : Nat} : ∀ (fuel : Nat) (t : BTree κ δ) (p : Option Nat), Orphanless t → ∀ t', splay fuel t x p ≠ .ok t' := by
  suffices H : ∀ (fuel : Nat) (t : BTree κ δ) (p : Option Nat), Orphanless t → ∀ s, whileLoop fuel (splayCond x) (splayBody x) (t, p) ≠ .ok s by
    intro fuel t p h t' e
    unfold splay at e
    cases e' : whileLoop fuel (splayCond x) (splayBody x) (t, p) with
    | error => rw [e'] at e; cases e
    | ok s => exact H fuel t p h s e'
  intro fuel
  induction fuel with
  | zero => intro t p _ s; exact nofun
  | succ fuel ih =>
    intro t p h s e
    simp only [whileLoop, splayCond] at e
    cases e1 : getNode t x with
    | error => rw [e1] at e; cases e
    | ok n =>
      rw [e1] at e
      simp only [ok_bind, h n (getNode_mem e1), if_true] at e
      cases e2 : splayBody x (t, p) with
      | error => rw [e2] at e; cases e
      | ok s' =>
        rw [e2] at e
        exact ih s'.1 s'.2 (splayBody_keeps h e2) s e

/-- Inserting a key that is present and not at the root never returns. -/
theorem splayInsert_never {lt : κ → κ → Bool} (ht : StrictTotal (ltRel lt)) {os : Bool} {t : BTree κ δ} {m : κ → Option (Option δ)} {last : Option κ}
    (h : SplayState lt os t m last) (k : κ) (d : Option δ) (h1 : (m k).isSome) (h2 : last ≠ some k) :
    ∃ n0, ∀ fuel, n0 ≤ fuel → ∀ t', splayInsert lt fuel t k d ≠ .ok t' := by
  cases h with
  | empty h hm hl => rw [hm] at h1; cases h1
  | tree A j B k0 ok car hj hk0 hl =>
    rcases bstInsert_spec ht ok k d with ⟨i, t1, hi, hk, hr, hrun⟩ | ⟨f, c, t1, hT, habs, hI, hrun⟩
    · have ok1 := hr.bstOk ok
      obtain ⟨c, A', B', hT, hsp⟩ := searchP_at ht ok1 hi (by rw [hr.sameKey, hk])
      have hcne : c ≠ [] := by
        rintro rfl
        cases hT
        rw [hk] at hk0
        exact h2 (hl.trans hk0.symm)
      obtain ⟨f, c, rfl⟩ : ∃ f c', c = f :: c' := by
        cases c with
        | nil => exact absurd rfl hcne
        | cons f c => exact ⟨f, c, rfl⟩
      obtain ⟨n, en, n1, n2, n3⟩ := (show TreeAt true t1 (Around.plug [] (.node A j B)) from ok1.tree).node
      refine ⟨(Shape.node A j B).ids.length + 2, fun fuel hf t' => ?_⟩
      rw [splayInsert_eq (hrun fuel (by omega))]
      have hsz : t1.size - 1 = j := by rw [ok1.size_top, hr.rest.top]; omega
      obtain ⟨t2, e2, a2, r2, q2⟩ := modNode_spec (t := t1) (i := j) (fun n => { n with parent := Around.up (f :: c) }) (by rw [en]; rfl)
      simp only [splayFinish, hsp fuel (by omega), ok_bind, hsz, e2, asIdx]
      refine splay_never fuel t2 _ ?_ t'
      intro n' hn'
      obtain ⟨i', hi'⟩ := List.getElem?_of_mem hn'
      have ei' : t2.at i' = some n' := by simp [BTree.at, hi']
      by_cases hji : i' = j
      · subst hji
        rw [a2, mapAt_same en] at ei'
        cases ei'; rfl
      · rw [a2] at ei'
        simp only [mapAt, if_neg hji] at ei'
        -- every cell is part of the tree
        have hmem : i' ∈ (Shape.node A j B).ids := by
          have hlt : i' < t1.top := ok1.low i' (by rw [ei']; rfl)
          exact ok1.mem hlt
        obtain ⟨c', A2, B2, hc'⟩ := plug_of_mem (.node A j B) i' hmem
        obtain ⟨n2', en2', _, _, n3'⟩ := (show TreeAt true t1 (Around.plug c' (.node A2 i' B2)) from hc' ▸ ok1.tree).node
        rw [ei'] at en2'; cases en2'
        rw [n3']
        cases c' with
        | nil => cases hc'; exact absurd rfl hji
        | cons f c' => rfl
    · obtain ⟨x, ex⟩ := Option.isSome_iff_exists.mp h1
      obtain ⟨i, hi, n, en, hk, _⟩ := (car k x).mp ex
      exact absurd (by simp [keyOf, en, hk]) (habs i hi)

theorem splayHistory_never {lt : κ → κ → Bool} (ht : StrictTotal (ltRel lt)) {os : Bool} : ∀ (ops : List (κ × Option δ)) (t : BTree κ δ)
    (m : κ → Option (Option δ)) (seen : List κ), SplayState lt os t m seen.head? → (∀ k, (m k).isSome ↔ k ∈ seen) → ¬ SplayFine seen (ops.map (·.1)) →
    ∃ n0, ∀ fuel, n0 ≤ fuel → ∀ t', splayInserts lt fuel t ops ≠ .ok t' := by
  intro ops
  induction ops with
  | nil => intro t m seen _ _ h; exact absurd trivial h
  | cons op ops ih =>
    intro t m seen h hm hf
    by_cases hc : op.1 ∉ seen ∨ seen.head? = some op.1
    · obtain ⟨t1, h1, n1, r1⟩ := splayState_insert ht h op.1 op.2 (by
        rcases hc with hc | hc
        · left
          cases e : m op.1 with
          | none => rfl
          | some x => exact absurd ((hm _).mp (by rw [e]; rfl)) hc
        · exact .inr hc)
      obtain ⟨n2, r2⟩ := ih t1 _ (op.1 :: seen) h1 (by
        intro k
        by_cases e : k = op.1
        · simp [e]
        · simp [e, hm k]) (fun h => hf ⟨hc, h⟩)
      refine ⟨max n1 n2, fun fuel hfu t' => ?_⟩
      have e1 := r1 fuel (by omega)
      have e2 := r2 fuel (by omega) t'
      unfold splayInserts at e2 ⊢
      rw [List.foldlM_cons, e1]
      exact e2
    · simp only [not_or, Decidable.not_not] at hc
      obtain ⟨n1, r1⟩ := splayInsert_never ht h op.1 op.2 ((hm _).mpr hc.1) hc.2
      refine ⟨n1, fun fuel hfu t' => ?_⟩
      unfold splayInserts
      rw [List.foldlM_cons]
      cases e : splayInsert lt fuel t op.1 op.2 with
      | error => exact nofun
      | ok s => exact absurd e (r1 fuel hfu s)

/-- Exactly the histories that insert a key again only right after inserting it end normally. -/
theorem C79_exact {lt : κ → κ → Bool} (ht : StrictTotal (ltRel lt)) (os : Bool) (ops : List (κ × Option δ)) :
    (∃ t, EndsWith (fun n => splayInserts lt n (btEmpty os) ops) (.ok t)) ↔ SplayFine [] (ops.map (·.1)) := by
  constructor
  · rintro ⟨t, n1, h1⟩
    apply Classical.byContradiction
    intro hf
    obtain ⟨n2, h2⟩ := splayHistory_never ht ops (btEmpty (κ := κ) (δ := δ) os) (fun _ => none) [] (.empty rfl (fun _ => rfl) rfl) (by simp) hf
    exact h2 (max n1 n2) (by omega) t (h1 (max n1 n2) (by omega))
  · intro hf
    obtain ⟨t, _, h⟩ := splay_history ht os ops hf
    exact ⟨t, h⟩

theorem C79_full_false : ¬ C79_full := by
  intro h
  obtain ⟨t, ht, _⟩ := h [(1, none), (2, none), (1, none)] nofun
  have := (C79_exact (lt := fun a b => decide (a < b)) ⟨fun a => by simp [ltRel], fun a b c => by simp [ltRel]; omega, fun a b => by simp [ltRel]; omega⟩ false _).mp ⟨t, ht⟩
  simp [SplayFine] at this

/-- What happens there: `insert(1)`, `insert(2)`, `insert(1)` raises a TypeError. -/
example : EndsWith (fun n => splayInserts (κ := Nat) (δ := Char) (fun a b => decide (a < b)) n (btEmpty false) [(1, none), (2, none), (1, none)]) (.error .typeError) :=
  ⟨30, fun n hn => by obtain ⟨m, rfl⟩ : ∃ m, n = m + 30 := ⟨n - 30, by omega⟩; rfl⟩

/-- A history the theorems speak about: it repeats a key right away. -/
example : SplayFine [] ([(2, some 'a'), (1, none), (1, some 'b'), (3, none)] : List (Nat × Option Char)).unzip.1 := by
  simp [SplayFine]

end Props
