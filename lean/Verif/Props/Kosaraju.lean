import Verif.Model.Kosaraju
import Verif.Props.Scc

/-! # C70: Kosaraju's algorithm -/
namespace Props
open Py Model Spec

section
variable {vs : List String} {nbr : String → List String} {nb : String → PyM (List String)}

/-- The dictionary `incoming` lists the predecessors among the vertices of `X`; vertices without such predecessors are no keys. -/
def Incoming (X : String → String → Prop) (inc : PyDict String (List String)) : Prop :=
  ∀ w, (inc.val w = none ∧ ∀ x, ¬ X x w) ∨ ∃ r, inc.val w = some r ∧ r ≠ [] ∧ ∀ x, x ∈ r ↔ X x w

theorem kosNeighbor_fold (top : String) : ∀ (ns : List String) (st : KVisit) (X : String → String → Prop), Incoming X st.incoming →
    ∃ ps inc, ns.foldl (fun st n => kosNeighbor top n st) st = { st with stack := ps ++ st.stack, incoming := inc } ∧
      Incoming (fun x w => X x w ∨ (x = top ∧ w ∈ ns)) inc ∧ (∀ p ∈ ps, p ∈ ns ∧ p ∉ st.visited) ∧ ps.length ≤ ns.length ∧
      ∀ n ∈ ns, n ∉ st.visited → n ∈ ps := by
  intro ns
  induction ns with
  | nil => intro st X h; exact ⟨[], st.incoming, rfl, by simpa using h, by simp, by simp, by simp⟩
  | cons n ns ih =>
    intro st X h
    let row := (st.incoming.val n).getD []
    have h1 : Incoming (fun x w => X x w ∨ (x = top ∧ w = n)) (st.incoming.set n (row ++ [top])) := by
      intro w
      by_cases hw : w = n
      · subst hw
        right
        refine ⟨row ++ [top], by simp [PyDict.set], by simp, fun x => ?_⟩
        rcases h w with ⟨e, hX⟩ | ⟨r, e, _, hr⟩
        · simp [row, e, hX x]
        · simp [row, e, hr x]
      · rcases h w with ⟨e, hX⟩ | ⟨r, e, hne, hr⟩
        · left; exact ⟨by simp [PyDict.set, hw, e], fun x => by simp [hX x, hw]⟩
        · right; exact ⟨r, by simp [PyDict.set, hw, e], hne, fun x => by simp [hr x, hw]⟩
    rw [List.foldl_cons]
    by_cases hv : n ∈ st.visited
    · have e : kosNeighbor top n st = { st with incoming := st.incoming.set n (row ++ [top]) } := by simp only [kosNeighbor]; rw [if_pos hv]
      rw [e]
      obtain ⟨ps, inc, e2, h2, h3, h4, h5⟩ := ih { st with incoming := st.incoming.set n (row ++ [top]) } _ h1
      refine ⟨ps, inc, e2, ?_, fun p hp => ⟨by simp [(h3 p hp).1], (h3 p hp).2⟩, by simp; omega, ?_⟩
      · intro w
        rcases h2 w with ⟨e, hX⟩ | ⟨r, e, hne, hr⟩
        · left; refine ⟨e, fun x hx => hX x ?_⟩; simp only [List.mem_cons] at hx; grind
        · right; refine ⟨r, e, hne, fun x => (hr x).trans ?_⟩; simp only [List.mem_cons]; grind
      · intro m hm hmv
        rcases List.mem_cons.1 hm with rfl | hm
        · exact absurd hv hmv
        · exact h5 m hm hmv
    · have e : kosNeighbor top n st = { st with incoming := st.incoming.set n (row ++ [top]), stack := n :: st.stack } := by
        simp only [kosNeighbor]; rw [if_neg hv]
      rw [e]
      obtain ⟨ps, inc, e2, h2, h3, h4, h5⟩ := ih { st with incoming := st.incoming.set n (row ++ [top]), stack := n :: st.stack } _ h1
      refine ⟨ps ++ [n], inc, by rw [e2]; simp, ?_, ?_, by simp; omega, ?_⟩
      · intro w
        rcases h2 w with ⟨e, hX⟩ | ⟨r, e, hne, hr⟩
        · left; refine ⟨e, fun x hx => hX x ?_⟩; simp only [List.mem_cons] at hx; grind
        · right; refine ⟨r, e, hne, fun x => (hr x).trans ?_⟩; simp only [List.mem_cons]; grind
      · intro p hp
        rcases List.mem_append.1 hp with hp | hp
        · exact ⟨by simp [(h3 p hp).1], (h3 p hp).2⟩
        · have : p = n := by simpa using hp
          subst this; exact ⟨by simp, hv⟩
      · intro m hm hmv
        rcases List.mem_cons.1 hm with rfl | hm
        · simp
        · simp [h5 m hm hmv]

/-- The state between the steps of the first search. -/
structure KoInv (vs : List String) (nbr : String → List String) (st : KVisit) : Prop where
  stk : ∀ x ∈ st.stack, x ∈ vs
  vis : ∀ x ∈ st.visited, x ∈ vs
  inc : Incoming (fun x w => x ∈ st.visited ∧ w ∈ nbr x) st.incoming
  sub : ∀ x ∈ st.L, x ∈ st.visited
  sup : ∀ x ∈ st.visited, x ∈ st.L ∨ x ∈ st.stack

/-- The work that is left. -/
def kosWork (vs : List String) (deg : String → Nat) (seen stack : List String) : Nat :=
  (vs.map fun v => if v ∈ seen then 0 else 1 + deg v).sum + stack.length

theorem kosWork_mark {deg : String → Nat} (hn : vs.Nodup) {v : String} (hv : v ∈ vs) {seen stack stack' : List String} (hs : v ∉ seen)
    (hl : stack'.length ≤ stack.length + deg v) : kosWork vs deg (seen ++ [v]) stack' + 1 ≤ kosWork vs deg seen stack := by
  have := sum_update (fun w => if w ∈ seen then 0 else 1 + deg w) (fun w => if w ∈ seen ++ [v] then 0 else 1 + deg w) v vs hn hv (by
    intro u hu; simp [hu])
  simp only [hs, if_false] at this
  simp only [kosWork]
  simp at this ⊢
  omega

theorem kosVisitLoop_spec (hg : FinGraph vs nbr) (hnb : ∀ v ∈ vs, nb v = .ok (nbr v)) : ∀ (N : Nat) (st : KVisit), KoInv vs nbr st →
    kosWork vs (fun v => (nbr v).length) st.visited st.stack ≤ N →
    ∃ st', (∀ fuel, N < fuel → kosVisitLoop nb fuel st = .ok st') ∧ KoInv vs nbr st' ∧ st'.stack = [] ∧ (∀ x ∈ st.visited, x ∈ st'.visited) ∧
      ∀ x ∈ st.stack, x ∈ st'.L := by
  intro N
  induction N with
  | zero =>
    intro st h hN
    have : st.stack = [] := List.length_eq_zero_iff.1 (by simp only [kosWork] at hN; omega)
    refine ⟨st, ?_, h, this, fun _ h => h, by simp [this]⟩
    intro fuel hf
    obtain ⟨f, rfl⟩ : ∃ f, fuel = f + 1 := ⟨fuel - 1, by omega⟩
    rw [kosVisitLoop, this]
  | succ N ih =>
    intro st h hN
    cases hs : st.stack with
    | nil =>
      refine ⟨st, ?_, h, hs, fun _ h => h, by simp⟩
      intro fuel hf
      obtain ⟨f, rfl⟩ : ∃ f, fuel = f + 1 := ⟨fuel - 1, by omega⟩
      rw [kosVisitLoop, hs]
    | cons top rest =>
      have htop : top ∈ vs := h.stk top (by rw [hs]; simp)
      by_cases hv : top ∈ st.visited
      · have e : kosPop top st = { st with stack := rest, L := st.L ++ [top] } := by rw [kosPop, hs]; simp
        have h1 : KoInv vs nbr { st with stack := rest, L := st.L ++ [top] } := by
          refine ⟨fun x hx => h.stk x (by rw [hs]; simp [hx]), h.vis, h.inc, ?_, ?_⟩
          · intro x hx
            rcases List.mem_append.1 hx with hx | hx
            · exact h.sub x hx
            · have : x = top := by simpa using hx
              rw [this]; exact hv
          · intro x hx
            rcases h.sup x hx with h2 | h2
            · left; simp [h2]
            · rw [hs] at h2
              rcases List.mem_cons.1 h2 with h2 | h2
              · left; simp [h2]
              · exact Or.inr h2
        obtain ⟨st', e', i', s', v', l'⟩ := ih _ h1 (by simp only [kosWork, hs, List.length_cons] at hN ⊢; omega)
        refine ⟨st', ?_, i', s', v', ?_⟩
        · intro fuel hf
          obtain ⟨f, rfl⟩ : ∃ f, fuel = f + 1 := ⟨fuel - 1, by omega⟩
          rw [kosVisitLoop, hs]
          simp only [hv, if_true]
          rw [e]
          exact e' f (by omega)
        · intro x hx
          rcases List.mem_cons.1 hx with rfl | hx
          · rcases i'.sup x (v' x hv) with h2 | h2
            · exact h2
            · rw [s'] at h2; cases h2
          · exact l' x hx
      · obtain ⟨ps, inc, e1, h1, h2, h3, _⟩ := kosNeighbor_fold top (nbr top) { st with visited := st.visited ++ [top] } _ h.inc
        have hsub : ∀ p ∈ ps, p ∈ vs := fun p hp => hg.closed top htop p (h2 p hp).1
        let st1 : KVisit := ⟨ps ++ st.stack, st.visited ++ [top], inc, st.L⟩
        have hI1 : Incoming (fun x w => x ∈ st.visited ++ [top] ∧ w ∈ nbr x) inc := by
          intro w
          rcases h1 w with ⟨e, hX⟩ | ⟨r, e, hne, hr⟩
          · left; refine ⟨e, fun x hx => hX x ?_⟩; simp only [List.mem_append, List.mem_singleton] at hx; grind
          · right; refine ⟨r, e, hne, fun x => (hr x).trans ?_⟩; simp only [List.mem_append, List.mem_singleton]; grind
        have hvis1 : ∀ x ∈ st.visited ++ [top], x ∈ vs := by
          intro x hx
          rcases List.mem_append.1 hx with hx | hx
          · exact h.vis x hx
          · have : x = top := by simpa using hx
            rw [this]; exact htop
        have hpop : ∃ st2 : KVisit, kosPop top st1 = st2 ∧ KoInv vs nbr st2 ∧ st2.visited = st.visited ++ [top] ∧
            st2.stack.length ≤ st.stack.length + (nbr top).length ∧ ∀ x ∈ rest, x ∈ st2.stack := by
          cases hps : ps with
          | nil =>
            refine ⟨⟨rest, st.visited ++ [top], inc, st.L ++ [top]⟩, ?_, ⟨fun x hx => h.stk x (by rw [hs]; simp [hx]), hvis1, hI1, ?_, ?_⟩, rfl, ?_, ?_⟩
            · simp [kosPop, st1, hps, hs]
            · intro x hx
              rcases List.mem_append.1 hx with hx | hx
              · exact List.mem_append_left _ (h.sub x hx)
              · exact List.mem_append_right _ hx
            · intro x hx
              rcases List.mem_append.1 hx with hx | hx
              · rcases h.sup x hx with h4 | h4
                · left; simp [h4]
                · rw [hs] at h4
                  rcases List.mem_cons.1 h4 with h4 | h4
                  · left; simp [h4]
                  · exact Or.inr h4
              · left; simp at hx; simp [hx]
            · rw [hs]; simp; omega
            · exact fun x hx => hx
          | cons p ps' =>
            have hp : top ≠ p := fun e => (h2 p (by rw [hps]; simp)).2 (by simp [e])
            refine ⟨st1, ?_, ⟨?_, hvis1, hI1, ?_, ?_⟩, rfl, ?_, ?_⟩
            · simp [kosPop, st1, hps, hp]
            · intro x hx
              rcases List.mem_append.1 hx with hx | hx
              · exact hsub x hx
              · exact h.stk x hx
            · exact fun x hx => List.mem_append_left _ (h.sub x hx)
            · intro x hx
              rcases List.mem_append.1 hx with hx | hx
              · rcases h.sup x hx with h4 | h4
                · exact Or.inl h4
                · right; simp only [st1]; exact List.mem_append_right _ h4
              · have : x = top := by simpa using hx
                right; simp only [st1]; rw [this, hs]; simp
            · simp only [st1, List.length_append]; omega
            · intro x hx; simp only [st1]; rw [hs]; simp [hx]
        obtain ⟨st2, e2, i2, vis2, l2, r2⟩ := hpop
        obtain ⟨st', e', i', s', v', l'⟩ := ih st2 i2 (by
          have := kosWork_mark (deg := fun v => (nbr v).length) hg.nodup htop hv l2
          rw [vis2]
          omega)
        refine ⟨st', ?_, i', s', ?_, ?_⟩
        · intro fuel hf
          obtain ⟨f, rfl⟩ : ∃ f, fuel = f + 1 := ⟨fuel - 1, by omega⟩
          rw [kosVisitLoop, hs]
          simp only [hv, if_false, hnb top htop, ok_bind]
          rw [← hs, e1]
          simp only
          rw [e2]
          exact e' f (by omega)
        · intro x hx; exact v' x (by rw [vis2]; simp [hx])
        · intro x hx
          rcases List.mem_cons.1 hx with rfl | hx
          · rcases i'.sup x (v' x (by rw [vis2]; simp)) with h4 | h4
            · exact h4
            · rw [s'] at h4; cases h4
          · exact l' x (r2 x hx)

/-- The first pass: `L` contains exactly the vertices and `incoming` all edges. -/
theorem kosVisit_all (hg : FinGraph vs nbr) (hnb : ∀ v ∈ vs, nb v = .ok (nbr v)) : ∃ st N, (∀ fuel, N < fuel →
    forList vs (⟨[], [], PyDict.empty, []⟩ : KVisit) (fun u st => kosVisit nb fuel u st) = .ok st) ∧
    Incoming (fun x w => x ∈ vs ∧ w ∈ nbr x) st.incoming ∧ ∀ x, x ∈ st.L ↔ x ∈ vs := by
  let N := kosWork vs (fun v => (nbr v).length) [] [""]
  have loop : ∀ (us : List String) (st : KVisit), (∀ u ∈ us, u ∈ vs) → KoInv vs nbr st → st.stack = [] →
      ∃ st', (∀ fuel, N < fuel → forList us st (fun u st => kosVisit nb fuel u st) = .ok st') ∧ KoInv vs nbr st' ∧ st'.stack = [] ∧
        (∀ x ∈ st.visited, x ∈ st'.visited) ∧ ∀ u ∈ us, u ∈ st'.visited := by
    intro us
    induction us with
    | nil => intro st _ h hs; exact ⟨st, fun _ _ => rfl, h, hs, fun _ h => h, by simp⟩
    | cons u us ih =>
      intro st hus h hs
      have hu := hus u (by simp)
      have hone : ∃ st1, (∀ fuel, N < fuel → kosVisit nb fuel u st = .ok st1) ∧ KoInv vs nbr st1 ∧ st1.stack = [] ∧
          (∀ x ∈ st.visited, x ∈ st1.visited) ∧ u ∈ st1.visited := by
        by_cases hv : u ∈ st.visited
        · exact ⟨st, fun _ _ => by rw [kosVisit, if_pos hv], h, hs, fun _ h => h, hv⟩
        · obtain ⟨st1, e1, i1, s1, v1, l1⟩ := kosVisitLoop_spec hg hnb N { st with stack := [u] } ⟨by simpa using hu, h.vis, h.inc, h.sub, by
            intro x hx
            rcases h.sup x hx with h1 | h1
            · exact Or.inl h1
            · rw [hs] at h1; cases h1⟩ (by
              simp only [N, kosWork, List.length_singleton]
              refine Nat.add_le_add_right ?_ _
              have : ∀ l : List String, (l.map fun v => if v ∈ st.visited then 0 else 1 + (nbr v).length).sum ≤
                  (l.map fun v => if v ∈ ([] : List String) then 0 else 1 + (nbr v).length).sum := by
                intro l
                induction l with
                | nil => simp
                | cons a l ih =>
                  simp only [List.map_cons, List.sum_cons]
                  refine Nat.add_le_add ?_ ih
                  simp
                  split <;> omega
              exact this vs)
          exact ⟨st1, fun fuel hf => by rw [kosVisit, if_neg hv]; exact e1 fuel hf, i1, s1, v1, i1.sub u (l1 u (by simp))⟩
      obtain ⟨st1, e1, i1, s1, v1, u1⟩ := hone
      obtain ⟨st2, e2, i2, s2, v2, u2⟩ := ih st1 (fun x hx => hus x (by simp [hx])) i1 s1
      refine ⟨st2, fun fuel hf => by rw [forList, e1 fuel hf, ok_bind, e2 fuel hf], i2, s2, fun x hx => v2 x (v1 x hx), ?_⟩
      intro x hx
      rcases List.mem_cons.1 hx with rfl | hx
      · exact v2 x u1
      · exact u2 x hx
  obtain ⟨st, e, i, s, _, u⟩ := loop vs ⟨[], [], PyDict.empty, []⟩ (fun _ h => h)
    ⟨by simp, by simp, fun w => Or.inl ⟨rfl, by simp⟩, by simp, by simp⟩ rfl
  refine ⟨st, N, e, ?_, fun x => ⟨fun hx => i.vis x (i.sub x hx), fun hx => ?_⟩⟩
  · intro w
    rcases i.inc w with ⟨e, hX⟩ | ⟨r, e, hne, hr⟩
    · left; exact ⟨e, fun x hx => hX x ⟨u x hx.1, hx.2⟩⟩
    · right; exact ⟨r, e, hne, fun x => (hr x).trans ⟨fun h => ⟨i.vis x h.1, h.2⟩, fun h => ⟨u x h.1, h.2⟩⟩⟩
  · rcases i.sup x (u x hx) with h1 | h1
    · exact h1
    · rw [s] at h1; cases h1

theorem kosPush_fold : ∀ (ns : List String) (st : KAssign), ∃ ps, ns.foldl (fun st n => kosPush n st) st = { st with stack := ps ++ st.stack } ∧
    (∀ p ∈ ps, p ∈ ns ∧ p ∉ st.assigned) ∧ ps.length ≤ ns.length ∧ ∀ n ∈ ns, n ∉ st.assigned → n ∈ ps := by
  intro ns
  induction ns with
  | nil => intro st; exact ⟨[], rfl, by simp, by simp, by simp⟩
  | cons n ns ih =>
    intro st
    rw [List.foldl_cons]
    by_cases hv : n ∈ st.assigned
    · rw [kosPush, if_pos hv]
      obtain ⟨ps, e, h1, h2, h3⟩ := ih st
      refine ⟨ps, e, fun p hp => ⟨by simp [(h1 p hp).1], (h1 p hp).2⟩, by simp; omega, ?_⟩
      intro m hm hmv
      rcases List.mem_cons.1 hm with rfl | hm
      · exact absurd hv hmv
      · exact h3 m hm hmv
    · rw [kosPush, if_neg hv]
      obtain ⟨ps, e, h1, h2, h3⟩ := ih { st with stack := n :: st.stack }
      refine ⟨ps ++ [n], by rw [e]; simp, ?_, by simp; omega, ?_⟩
      · intro p hp
        rcases List.mem_append.1 hp with hp | hp
        · exact ⟨by simp [(h1 p hp).1], (h1 p hp).2⟩
        · have : p = n := by simpa using hp
          subst this; exact ⟨by simp, hv⟩
      · intro m hm hmv
        rcases List.mem_cons.1 hm with rfl | hm
        · simp
        · simp [h3 m hm hmv]

/-- The state between the steps of the second search; `A` were assigned before, the root is `r`. -/
structure KAInv (vs : List String) (nbr : String → List String) (A : List String) (r : String) (st : KAssign) : Prop where
  split : st.assigned = A ++ st.component
  stk : ∀ x ∈ st.stack, x ∈ vs ∧ Reach nbr x r ∧ x ∉ A
  comp : ∀ x ∈ st.component, x ∈ vs ∧ Reach nbr x r ∧ x ∉ A
  nodup : st.component.Nodup
  pred : ∀ x ∈ st.component, ∀ y ∈ vs, x ∈ nbr y → y ∈ st.assigned ∨ y ∈ st.stack

/-- The second search either meets a vertex without predecessors, or collects vertices until all predecessors are assigned. -/
theorem kosAssignLoop_spec (hg : FinGraph vs nbr) {inc : PyDict String (List String)} (hinc : Incoming (fun x w => x ∈ vs ∧ w ∈ nbr x) inc)
    {A : List String} {r : String} : ∀ (N : Nat) (st : KAssign), KAInv vs nbr A r st →
    kosWork vs (fun v => ((inc.val v).getD []).length) st.assigned st.stack ≤ N →
    (∃ v ∈ vs, (∀ y ∈ vs, v ∉ nbr y) ∧ ∀ fuel, N < fuel → kosAssignLoop inc fuel st = .error .keyError) ∨
    ∃ st', (∀ fuel, N < fuel → kosAssignLoop inc fuel st = .ok st') ∧ KAInv vs nbr A r st' ∧ st'.stack = [] ∧
      (∀ x ∈ st.assigned, x ∈ st'.assigned) ∧ (∀ x ∈ st.stack, x ∈ st'.assigned) ∧ ∀ x ∈ st'.component, x ∈ st.component ∨ ∃ y ∈ vs, x ∈ nbr y := by
  intro N
  induction N with
  | zero =>
    intro st h hN
    right
    have : st.stack = [] := List.length_eq_zero_iff.1 (by simp only [kosWork] at hN; omega)
    refine ⟨st, ?_, h, this, fun _ h => h, by simp [this], fun x hx => Or.inl hx⟩
    intro fuel hf
    obtain ⟨f, rfl⟩ : ∃ f, fuel = f + 1 := ⟨fuel - 1, by omega⟩
    rw [kosAssignLoop, this]
  | succ N ih =>
    intro st h hN
    cases hs : st.stack with
    | nil =>
      right
      refine ⟨st, ?_, h, hs, fun _ h => h, by simp, fun x hx => Or.inl hx⟩
      intro fuel hf
      obtain ⟨f, rfl⟩ : ∃ f, fuel = f + 1 := ⟨fuel - 1, by omega⟩
      rw [kosAssignLoop, hs]
    | cons top rest =>
      obtain ⟨htop, hreach, htA⟩ := h.stk top (by rw [hs]; simp)
      by_cases hv : top ∈ st.assigned
      · have e : kosDrop top st = { st with stack := rest } := by rw [kosDrop, hs]; simp
        have h1 : KAInv vs nbr A r { st with stack := rest } := by
          refine ⟨h.split, fun x hx => h.stk x (by rw [hs]; simp [hx]), h.comp, h.nodup, ?_⟩
          intro x hx y hy hxy
          rcases h.pred x hx y hy hxy with h2 | h2
          · exact Or.inl h2
          · rw [hs] at h2
            rcases List.mem_cons.1 h2 with h2 | h2
            · left; rw [h2]; exact hv
            · exact Or.inr h2
        have hstep : ∀ f, kosAssignLoop inc (f + 1) st = kosAssignLoop inc f { st with stack := rest } := by
          intro f
          rw [kosAssignLoop, hs]
          simp only [hv, if_true]
          rw [e]
        rcases ih _ h1 (by simp only [kosWork, hs, List.length_cons] at hN ⊢; omega) with ⟨v, hvv, hno, e'⟩ | ⟨st', e', i', s', v', l', c'⟩
        · left
          refine ⟨v, hvv, hno, fun fuel hf => ?_⟩
          obtain ⟨f, rfl⟩ : ∃ f, fuel = f + 1 := ⟨fuel - 1, by omega⟩
          rw [hstep]; exact e' f (by omega)
        · right
          refine ⟨st', ?_, i', s', v', ?_, c'⟩
          · intro fuel hf
            obtain ⟨f, rfl⟩ : ∃ f, fuel = f + 1 := ⟨fuel - 1, by omega⟩
            rw [hstep]; exact e' f (by omega)
          · intro x hx
            rcases List.mem_cons.1 hx with rfl | hx
            · exact v' x hv
            · exact l' x hx
      · rcases hinc top with ⟨e, hX⟩ | ⟨row, e, hne, hr⟩
        · left
          refine ⟨top, htop, fun y hy hty => hX y ⟨hy, hty⟩, fun fuel hf => ?_⟩
          obtain ⟨f, rfl⟩ : ∃ f, fuel = f + 1 := ⟨fuel - 1, by omega⟩
          rw [kosAssignLoop, hs]
          simp only [hv, if_false]
          simp only [PyDict.get, e]
          rfl
        · let st0 : KAssign := { st with assigned := st.assigned ++ [top], component := st.component ++ [top] }
          obtain ⟨ps, e1, h2, h3, h4⟩ := kosPush_fold row st0
          let st1 : KAssign := ⟨ps ++ st.stack, st.assigned ++ [top], st.component ++ [top]⟩
          have hps : ∀ p ∈ ps, p ∈ vs ∧ Reach nbr p r ∧ p ∉ A := by
            intro p hp
            obtain ⟨h5, h6⟩ := h2 p hp
            obtain ⟨h7, h8⟩ := (hr p).1 h5
            refine ⟨h7, Reach.trans ⟨1, .snoc .nil h8⟩ hreach, fun hpA => h6 ?_⟩
            simp only [st0]
            rw [h.split]
            simp [hpA]
          have hsplit : st.assigned ++ [top] = A ++ (st.component ++ [top]) := by rw [h.split]; simp
          have hcomp : ∀ x ∈ st.component ++ [top], x ∈ vs ∧ Reach nbr x r ∧ x ∉ A := by
            intro x hx
            rcases List.mem_append.1 hx with hx | hx
            · exact h.comp x hx
            · have : x = top := by simpa using hx
              rw [this]; exact ⟨htop, hreach, htA⟩
          have hnd : (st.component ++ [top]).Nodup := by
            refine List.nodup_append.2 ⟨h.nodup, by simp, ?_⟩
            rintro a ha b hb rfl
            have : a = top := by simpa using hb
            exact hv (by rw [h.split, ← this]; simp [ha])
          have hpred : ∀ x ∈ st.component ++ [top], ∀ y ∈ vs, x ∈ nbr y → y ∈ st.assigned ++ [top] ∨ y ∈ ps ++ st.stack := by
            intro x hx y hy hxy
            rcases List.mem_append.1 hx with hx | hx
            · rcases h.pred x hx y hy hxy with h5 | h5
              · left; simp [h5]
              · right; simp [h5]
            · have hxt : x = top := by simpa using hx
              by_cases hya : y ∈ st.assigned ++ [top]
              · exact Or.inl hya
              · right
                exact List.mem_append_left _ (h4 y ((hr y).2 ⟨hy, hxt ▸ hxy⟩) hya)
          have hdrop : ∃ st2 : KAssign, kosDrop top st1 = st2 ∧ KAInv vs nbr A r st2 ∧ st2.assigned = st.assigned ++ [top] ∧
              st2.component = st.component ++ [top] ∧
              st2.stack.length ≤ st.stack.length + ((inc.val top).getD []).length ∧ ∀ x ∈ rest, x ∈ st2.stack := by
            cases hpe : ps with
            | nil =>
              refine ⟨⟨rest, st.assigned ++ [top], st.component ++ [top]⟩, ?_, ⟨hsplit, fun x hx => h.stk x (by rw [hs]; simp [hx]), hcomp, hnd, ?_⟩, rfl, rfl, ?_, ?_⟩
              · simp [kosDrop, st1, hpe, hs]
              · intro x hx y hy hxy
                rcases hpred x hx y hy hxy with h5 | h5
                · exact Or.inl h5
                · rw [hpe, hs] at h5
                  rcases List.mem_cons.1 h5 with h5 | h5
                  · left; simp [h5]
                  · exact Or.inr h5
              · rw [hs]; simp; omega
              · exact fun x hx => hx
            | cons p ps' =>
              have hp : top ≠ p := fun e => (h2 p (by rw [hpe]; simp)).2 (by simp [st0, e])
              refine ⟨st1, ?_, ⟨hsplit, ?_, hcomp, hnd, hpred⟩, rfl, rfl, ?_, ?_⟩
              · simp [kosDrop, st1, hpe, hp]
              · intro x hx
                rcases List.mem_append.1 hx with hx | hx
                · exact hps x hx
                · exact h.stk x hx
              · simp only [st1, List.length_append, e, Option.getD_some]; omega
              · intro x hx; simp only [st1]; rw [hs]; simp [hx]
          obtain ⟨st2, e2, i2, as2, cs2, l2, r2⟩ := hdrop
          have hstep : ∀ f, kosAssignLoop inc (f + 1) st = kosAssignLoop inc f st2 := by
            intro f
            rw [kosAssignLoop, hs]
            simp only [hv, if_false]
            simp only [PyDict.get, e, ok_bind]
            rw [← hs, e1]
            simp only [st0]
            rw [← e2]
          rcases ih st2 i2 (by
              have := kosWork_mark (deg := fun v => ((inc.val v).getD []).length) hg.nodup htop hv l2
              rw [as2]
              omega) with ⟨v, hvv, hno, e'⟩ | ⟨st', e', i', s', v', l', c'⟩
          · left
            refine ⟨v, hvv, hno, fun fuel hf => ?_⟩
            obtain ⟨f, rfl⟩ : ∃ f, fuel = f + 1 := ⟨fuel - 1, by omega⟩
            rw [hstep]; exact e' f (by omega)
          · right
            refine ⟨st', ?_, i', s', ?_, ?_, ?_⟩
            · intro fuel hf
              obtain ⟨f, rfl⟩ : ∃ f, fuel = f + 1 := ⟨fuel - 1, by omega⟩
              rw [hstep]; exact e' f (by omega)
            · intro x hx; exact v' x (by rw [as2]; simp [hx])
            · intro x hx
              rcases List.mem_cons.1 hx with rfl | hx
              · exact v' x (by rw [as2]; simp)
              · exact l' x (r2 x hx)
            · intro x hx
              rcases c' x hx with h5 | h5
              · rw [cs2] at h5
                rcases List.mem_append.1 h5 with h5 | h5
                · exact Or.inl h5
                · have : x = top := by simpa using h5
                  right
                  obtain ⟨y, hy⟩ := List.exists_mem_of_ne_nil row hne
                  obtain ⟨h6, h7⟩ := (hr y).1 hy
                  exact ⟨y, h6, this ▸ h7⟩
              · exact Or.inr h5

/-- What every answer satisfies: a partition into non-empty sets that are unions of classes of mutual reachability, each with a vertex that all
others of the set reach. -/
structure SccCoarse (vs : List String) (nbr : String → List String) (cs : List (List String)) : Prop where
  partition : cs.flatten.Perm vs
  root : ∀ C ∈ cs, ∃ r ∈ C, ∀ x ∈ C, Reach nbr x r
  union : ∀ C ∈ cs, ∀ x ∈ C, ∀ y, Reach nbr x y → Reach nbr y x → y ∈ C

/-- C70, what holds of every digraph: the call raises `KeyError` exactly when some vertex has no incoming edge; otherwise it returns a partition whose
sets are unions of strongly connected components. -/
theorem C70_coarse_partial (hg : FinGraph vs nbr) (hnb : ∀ v ∈ vs, nb v = .ok (nbr v)) :
    ∃ r, EndsWith (fun fuel => kosaraju vs nb fuel) r ∧
      (((∃ v ∈ vs, ∀ u ∈ vs, v ∉ nbr u) ∧ r = .error .keyError) ∨
       ((∀ v ∈ vs, ∃ u ∈ vs, v ∈ nbr u) ∧ ∃ cs, r = .ok cs ∧ SccCoarse vs nbr cs)) := by
  obtain ⟨st, N1, e1, hinc, hL⟩ := kosVisit_all hg hnb
  let deg : String → Nat := fun v => ((st.incoming.val v).getD []).length
  let N := kosWork vs deg [] [""]
  -- the second pass
  have loop : ∀ (ls A : List String) (cs : List (List String)), (∀ v ∈ ls, v ∈ vs) → cs.flatten = A → A.Nodup → (∀ x ∈ A, x ∈ vs) →
      (∀ x ∈ A, ∀ y ∈ vs, x ∈ nbr y → y ∈ A) → (∀ C ∈ cs, ∃ r ∈ C, ∀ x ∈ C, Reach nbr x r) →
      (∀ C ∈ cs, ∀ x ∈ C, ∀ y, Reach nbr x y → Reach nbr y x → y ∈ C) → (∀ x ∈ A, ∃ y ∈ vs, x ∈ nbr y) →
      (∃ v ∈ vs, (∀ y ∈ vs, v ∉ nbr y) ∧ ∀ fuel, N < fuel → forList ls (A, cs) (fun v r => kosAssign st.incoming fuel v r) = .error .keyError) ∨
      ∃ A' cs', (∀ fuel, N < fuel → forList ls (A, cs) (fun v r => kosAssign st.incoming fuel v r) = .ok (A', cs')) ∧ cs'.flatten = A' ∧ A'.Nodup ∧
        (∀ x ∈ A', x ∈ vs) ∧ (∀ C ∈ cs', ∃ r ∈ C, ∀ x ∈ C, Reach nbr x r) ∧
        (∀ C ∈ cs', ∀ x ∈ C, ∀ y, Reach nbr x y → Reach nbr y x → y ∈ C) ∧ (∀ x ∈ A, x ∈ A') ∧ (∀ x ∈ ls, x ∈ A') ∧
        ∀ x ∈ A', ∃ y ∈ vs, x ∈ nbr y := by
    intro ls
    induction ls with
    | nil =>
      intro A cs _ h1 h2 h3 _ h5 h6 h7
      exact Or.inr ⟨A, cs, fun _ _ => rfl, h1, h2, h3, h5, h6, fun _ h => h, by simp, h7⟩
    | cons v ls ih =>
      intro A cs hls h1 h2 h3 h4 h5 h6 h7
      have hvv := hls v (by simp)
      by_cases hv : v ∈ A
      · have e : ∀ fuel, kosAssign st.incoming fuel v (A, cs) = .ok (A, cs) := fun fuel => by rw [kosAssign, if_pos hv]
        rcases ih A cs (fun x hx => hls x (by simp [hx])) h1 h2 h3 h4 h5 h6 h7 with ⟨w, hw, hno, e'⟩ | ⟨A', cs', e', a1, a2, a3, a4, a5, a6, a7, a8⟩
        · left; exact ⟨w, hw, hno, fun fuel hf => by rw [forList, e, ok_bind, e' fuel hf]⟩
        · right
          refine ⟨A', cs', fun fuel hf => by rw [forList, e, ok_bind, e' fuel hf], a1, a2, a3, a4, a5, a6, ?_, a8⟩
          intro x hx
          rcases List.mem_cons.1 hx with rfl | hx
          · exact a6 x hv
          · exact a7 x hx
      · have hwork : kosWork vs deg A [v] ≤ N := by
          simp only [N, kosWork, List.length_singleton]
          refine Nat.add_le_add_right ?_ _
          have : ∀ l : List String, (l.map fun v => if v ∈ A then 0 else 1 + deg v).sum ≤
              (l.map fun v => if v ∈ ([] : List String) then 0 else 1 + deg v).sum := by
            intro l
            induction l with
            | nil => simp
            | cons a l ih =>
              simp only [List.map_cons, List.sum_cons]
              refine Nat.add_le_add ?_ ih
              simp
              split <;> omega
          exact this vs
        have hI0 : KAInv vs nbr A v ⟨[v], A, []⟩ := by
          refine ⟨by simp, ?_, by simp, by simp, by simp⟩
          intro x hx
          have : x = v := by simpa using hx
          subst this
          exact ⟨hvv, Reach.refl _ _, hv⟩
        rcases kosAssignLoop_spec hg hinc N ⟨[v], A, []⟩ hI0 hwork with ⟨w, hw, hno, e⟩ | ⟨st', e, i, s, m1, m2, m3⟩
        · left
          refine ⟨w, hw, hno, fun fuel hf => ?_⟩
          rw [forList, kosAssign, if_neg hv, e fuel hf]
          rfl
        · have hvc : v ∈ st'.component := by
            have := m2 v (by simp)
            rw [i.split] at this
            rcases List.mem_append.1 this with h | h
            · exact absurd h hv
            · exact h
          have hne : st'.component ≠ [] := List.ne_nil_of_mem hvc
          have e2 : ∀ fuel, N < fuel → kosAssign st.incoming fuel v (A, cs) = .ok (A ++ st'.component, cs ++ [st'.component]) := by
            intro fuel hf
            rw [kosAssign, if_neg hv, e fuel hf, ok_bind, if_pos hne, i.split]
          have hclosed : ∀ x ∈ A ++ st'.component, ∀ y ∈ vs, x ∈ nbr y → y ∈ A ++ st'.component := by
            intro x hx y hy hxy
            rcases List.mem_append.1 hx with hx | hx
            · exact List.mem_append_left _ (h4 x hx y hy hxy)
            · rcases i.pred x hx y hy hxy with h | h
              · rw [i.split] at h; exact h
              · rw [s] at h; cases h
          have hback : ∀ (B : List String), (∀ x ∈ B, ∀ y ∈ vs, x ∈ nbr y → y ∈ B) → ∀ y ∈ vs, ∀ x ∈ B, Reach nbr y x → y ∈ B := by
            intro B hB y hy x hx hr
            have : ∀ z, Reach nbr y z → (z ∈ B → y ∈ B) ∧ z ∈ vs := by
              intro z hz
              obtain ⟨k, hz⟩ := hz
              induction hz with
              | nil => exact ⟨fun h => h, hy⟩
              | snoc _ hw ih => exact ⟨fun h => ih.1 (hB _ h _ ih.2 hw), hg.closed _ ih.2 _ hw⟩
            exact (this x hr).1 hx
          have hvs : ∀ x y, x ∈ vs → Reach nbr x y → y ∈ vs := fun x y hx hr => Walk.verts hg.closed hx hr.choose_spec
          have hunion : ∀ C ∈ cs ++ [st'.component], ∀ x ∈ C, ∀ y, Reach nbr x y → Reach nbr y x → y ∈ C := by
            intro C hC
            rcases List.mem_append.1 hC with hC | hC
            · exact h6 C hC
            · have : C = st'.component := by simpa using hC
              subst this
              intro x hx y hxy hyx
              have hxv := (i.comp x hx).1
              have hyv := hvs x y hxv hxy
              have := hback _ hclosed y hyv x (List.mem_append_right _ hx) hyx
              rcases List.mem_append.1 this with h | h
              · exact absurd (hback A h4 x hxv y h hxy) (i.comp x hx).2.2
              · exact h
          rcases ih (A ++ st'.component) (cs ++ [st'.component]) (fun x hx => hls x (by simp [hx])) (by simp [h1])
              (List.nodup_append.2 ⟨h2, i.nodup, fun a ha b hb e => (i.comp b hb).2.2 (e ▸ ha)⟩)
              (by intro x hx; rcases List.mem_append.1 hx with h | h; exact h3 x h; exact (i.comp x h).1) hclosed
              (by
                intro C hC
                rcases List.mem_append.1 hC with hC | hC
                · exact h5 C hC
                · have : C = st'.component := by simpa using hC
                  subst this
                  exact ⟨v, hvc, fun x hx => (i.comp x hx).2.1⟩) hunion
              (by
                intro x hx
                rcases List.mem_append.1 hx with h | h
                · exact h7 x h
                · rcases m3 x h with h | h
                  · cases h
                  · exact h) with ⟨w, hw, hno, e'⟩ | ⟨A', cs', e', a1, a2, a3, a4, a5, a6, a7, a8⟩
          · left; exact ⟨w, hw, hno, fun fuel hf => by rw [forList, e2 fuel hf, ok_bind, e' fuel hf]⟩
          · right
            refine ⟨A', cs', fun fuel hf => by rw [forList, e2 fuel hf, ok_bind, e' fuel hf], a1, a2, a3, a4, a5, fun x hx => a6 x (by simp [hx]), ?_, a8⟩
            intro x hx
            rcases List.mem_cons.1 hx with rfl | hx
            · exact a6 x (by simp [hvc])
            · exact a7 x hx
  rcases loop st.L.reverse [] [] (fun v hv => (hL v).1 (by simpa using hv)) rfl (by simp) (by simp) (by simp) (by simp) (by simp) (by simp) with
    ⟨v, hv, hno, e2⟩ | ⟨A, cs, e2, a1, a2, a3, a4, a5, _, a7, a8⟩
  · refine ⟨.error .keyError, ⟨N1 + N + 1, fun fuel hf => ?_⟩, Or.inl ⟨⟨v, hv, hno⟩, rfl⟩⟩
    show kosaraju vs nb fuel = _
    rw [kosaraju, e1 fuel (by omega), ok_bind, e2 fuel (by omega)]
    rfl
  · have hall : ∀ v ∈ vs, v ∈ A := fun v hv => a7 v (by simpa using (hL v).2 hv)
    refine ⟨.ok cs, ⟨N1 + N + 1, fun fuel hf => ?_⟩, Or.inr ⟨fun v hv => a8 v (hall v hv), cs, rfl, ?_, a4, a5⟩⟩
    · show kosaraju vs nb fuel = _
      rw [kosaraju, e1 fuel (by omega), ok_bind, e2 fuel (by omega), ok_bind]
    · rw [a1]
      exact (List.perm_ext_iff_of_nodup a2 hg.nodup).2 fun v => ⟨a3 v, hall v⟩

/-- C70 for digraphs in which reachability is symmetric (for example undirected graphs, stored with both directions of each edge, and strongly connected
digraphs) and every vertex has an incoming edge: the components are exact. -/
theorem C70_symmetric_partial (hg : FinGraph vs nbr) (hnb : ∀ v ∈ vs, nb v = .ok (nbr v)) (hin : ∀ v ∈ vs, ∃ u ∈ vs, v ∈ nbr u)
    (hsym : ∀ u ∈ vs, ∀ v ∈ nbr u, Reach nbr v u) :
    ∃ cs, EndsWith (fun fuel => kosaraju vs nb fuel) (.ok cs) ∧ SccPartition vs nbr cs := by
  obtain ⟨r, e, ⟨⟨v, hv, hno⟩, _⟩ | ⟨_, cs, rfl, h⟩⟩ := C70_coarse_partial hg hnb
  · obtain ⟨u, hu, hvu⟩ := hin v hv
    exact absurd hvu (hno u hu)
  · have hback : ∀ x ∈ vs, ∀ y, Reach nbr x y → Reach nbr y x ∧ y ∈ vs := by
      intro x hx y hr
      obtain ⟨k, hr⟩ := hr
      induction hr with
      | nil => exact ⟨Reach.refl _ _, hx⟩
      | snoc _ hw ih => exact ⟨(hsym _ ih.2 _ hw).trans ih.1, hg.closed _ ih.2 _ hw⟩
    have hvs : ∀ C ∈ cs, ∀ x ∈ C, x ∈ vs := fun C hC x hx => h.partition.mem_iff.1 (List.mem_flatten.2 ⟨C, hC, hx⟩)
    refine ⟨cs, e, h.partition, fun C hC => ?_, fun C hC x hx y => ⟨fun hy => ?_, fun hy => h.union C hC x hx y hy.1 hy.2⟩⟩
    · obtain ⟨r, hr, _⟩ := h.root C hC
      exact List.ne_nil_of_mem hr
    · obtain ⟨r, hr, hall⟩ := h.root C hC
      have h1 := hback x (hvs C hC x hx) r (hall x hx)
      have h2 := hback y (hvs C hC y hy) r (hall y hy)
      exact ⟨(hall x hx).trans h2.1, (hall y hy).trans h1.1⟩

/-- C70 as one would state it. -/
def C70_full : Prop := ∀ (vs : List String) (nbr : String → List String) (nb : String → PyM (List String)), FinGraph vs nbr →
    (∀ v ∈ vs, nb v = .ok (nbr v)) → ∃ cs, EndsWith (fun fuel => kosaraju vs nb fuel) (.ok cs) ∧ SccPartition vs nbr cs

/-- C70 as one would state it for digraphs all of whose vertices have an incoming edge. -/
def C70_full_incoming : Prop := ∀ (vs : List String) (nbr : String → List String) (nb : String → PyM (List String)), FinGraph vs nbr →
    (∀ v ∈ vs, nb v = .ok (nbr v)) → (∀ v ∈ vs, ∃ u ∈ vs, v ∈ nbr u) →
    ∃ cs, EndsWith (fun fuel => kosaraju vs nb fuel) (.ok cs) ∧ SccPartition vs nbr cs

end

/-! ## Counterexamples and non-vacuity -/

/-- A single vertex without edges: `KeyError`. -/
theorem C70_full_false : ¬ C70_full := by
  intro h
  obtain ⟨cs, ⟨n0, e⟩, _⟩ := h ["a"] (fun _ => []) (fun _ => .ok []) ⟨by simp, by simp, by simp⟩ (by simp)
  obtain ⟨r, ⟨n1, e1⟩, h1⟩ := C70_coarse_partial (vs := ["a"]) (nbr := fun _ => []) (nb := fun _ => .ok []) ⟨by simp, by simp, by simp⟩ (by simp)
  have h2 := e (n0 + n1) (by omega)
  have h3 := e1 (n0 + n1) (by omega)
  rcases h1 with ⟨_, rfl⟩ | ⟨h4, _⟩
  · have := h2.symm.trans h3
    cases this
  · obtain ⟨u, _, h5⟩ := h4 "a" (by simp)
    cases h5

/-- `a` has a loop, and edges to `v` and `b`; `b` has an edge to `v`. -/
def exShortcut : String → List String := fun x => if x = "a" then ["a", "v", "b"] else if x = "b" then ["v"] else []

theorem kosVisitLoop_mono {nb : String → PyM (List String)} : ∀ (fuel : Nat) (st r : KVisit), kosVisitLoop nb fuel st = .ok r →
    ∀ k, kosVisitLoop nb (fuel + k) st = .ok r := by
  intro fuel
  induction fuel with
  | zero => intro st r h; cases h
  | succ f ih =>
    intro st r h k
    rw [show f + 1 + k = (f + k) + 1 by omega]
    rw [kosVisitLoop] at h ⊢
    split at h
    · exact h
    · split at h
      · rename_i hv; rw [if_pos hv]; exact ih _ _ h k
      · rename_i hv
        rw [if_neg hv]
        cases hn : nb _ with
        | error e => rw [hn] at h; cases h
        | ok ns => rw [hn, ok_bind] at h; rw [ok_bind]; exact ih _ _ h k

theorem kosAssignLoop_mono {inc : PyDict String (List String)} : ∀ (fuel : Nat) (st r : KAssign), kosAssignLoop inc fuel st = .ok r →
    ∀ k, kosAssignLoop inc (fuel + k) st = .ok r := by
  intro fuel
  induction fuel with
  | zero => intro st r h; cases h
  | succ f ih =>
    intro st r h k
    rw [show f + 1 + k = (f + k) + 1 by omega]
    rw [kosAssignLoop] at h ⊢
    split at h
    · exact h
    · split at h
      · rename_i hv; rw [if_pos hv]; exact ih _ _ h k
      · rename_i hv
        rw [if_neg hv]
        cases hn : inc.get _ with
        | error e => rw [hn] at h; cases h
        | ok ns => rw [hn, ok_bind] at h; rw [ok_bind]; exact ih _ _ h k

theorem forList_fuel {α σ : Type} {f g : α → σ → PyM σ} (h : ∀ x s r, f x s = .ok r → g x s = .ok r) : ∀ (xs : List α) (s r : σ),
    forList xs s f = .ok r → forList xs s g = .ok r := by
  intro xs
  induction xs with
  | nil => intro s r h; exact h
  | cons x xs ih =>
    intro s r hf
    rw [forList] at hf ⊢
    cases hx : f x s with
    | error e => rw [hx] at hf; cases hf
    | ok s' => rw [hx, ok_bind] at hf; rw [h x s s' hx, ok_bind]; exact ih _ _ hf

theorem kosaraju_mono {vs : List String} {nb : String → PyM (List String)} {fuel : Nat} {cs : List (List String)} (h : kosaraju vs nb fuel = .ok cs) (k : Nat) :
    kosaraju vs nb (fuel + k) = .ok cs := by
  rw [kosaraju] at h ⊢
  cases h1 : forList vs (⟨[], [], PyDict.empty, []⟩ : KVisit) (fun u st => kosVisit nb fuel u st) with
  | error e => rw [h1] at h; cases h
  | ok st =>
    rw [h1, ok_bind] at h
    have e1 : forList vs (⟨[], [], PyDict.empty, []⟩ : KVisit) (fun u st => kosVisit nb (fuel + k) u st) = .ok st := by
      refine forList_fuel ?_ _ _ _ h1
      intro x s r hx
      rw [kosVisit] at hx ⊢
      split at hx
      · rename_i hv; rw [if_pos hv]; exact hx
      · rename_i hv; rw [if_neg hv]; exact kosVisitLoop_mono _ _ _ hx k
    rw [e1, ok_bind]
    cases h2 : forList st.L.reverse (([] : List String), ([] : List (List String))) (fun v r => kosAssign st.incoming fuel v r) with
    | error e => rw [h2] at h; cases h
    | ok r =>
      rw [h2, ok_bind] at h
      have e2 : forList st.L.reverse (([] : List String), ([] : List (List String))) (fun v r => kosAssign st.incoming (fuel + k) v r) = .ok r := by
        refine forList_fuel ?_ _ _ _ h2
        intro x s r hx
        rw [kosAssign] at hx ⊢
        split at hx
        · rename_i hv; rw [if_pos hv]; exact hx
        · rename_i hv
          rw [if_neg hv]
          cases h3 : kosAssignLoop st.incoming fuel ⟨[x], s.1, []⟩ with
          | error e => rw [h3] at hx; cases hx
          | ok q => rw [h3] at hx; rw [kosAssignLoop_mono _ _ _ h3 k]; exact hx
      rw [e2, ok_bind]
      exact h

/-- The answer `{a}, {v, b}` for this graph, although `b` cannot be reached from `v`. -/
theorem C70_full_incoming_false : ¬ C70_full_incoming := by
  intro h
  have hg : FinGraph ["a", "b", "v"] exShortcut := ⟨by decide +kernel, by decide +kernel, by decide +kernel⟩
  obtain ⟨cs, ⟨n0, e⟩, hp⟩ := h ["a", "b", "v"] exShortcut (fun x => .ok (exShortcut x)) hg (by simp) (by decide +kernel)
  have h0 : kosaraju ["a", "b", "v"] (fun x => .ok (exShortcut x)) 20 = .ok [["a"], ["v", "b"]] := by decide +kernel
  have h1 := kosaraju_mono h0 n0
  have h2 := h1.symm.trans (e (20 + n0) (by omega))
  have h3 : cs = [["a"], ["v", "b"]] := by cases h2; rfl
  have h4 := (hp.strong ["v", "b"] (by simp [h3]) "v" (by simp) "b").1 (by simp)
  have : ∀ y, Reach exShortcut "v" y → y = "v" := fun y hy => Reach.of_closed (P := fun y => y = "v") (by
    rintro x rfl w hw
    simp [exShortcut] at hw) rfl hy
  have := this "b" h4.1
  exact absurd this (by decide)

/-- An undirected path and a cycle: the hypotheses of the symmetric case. -/
def exTwoParts : String → List String := fun x =>
  if x = "a" then ["b"] else if x = "b" then ["a", "c"] else if x = "c" then ["b"] else if x = "d" then ["e"] else if x = "e" then ["d"] else []

example : FinGraph ["a", "b", "c", "d", "e"] exTwoParts ∧ (∀ v ∈ ["a", "b", "c", "d", "e"], ∃ u ∈ ["a", "b", "c", "d", "e"], v ∈ exTwoParts u) :=
  ⟨⟨by decide +kernel, by decide +kernel, by decide +kernel⟩, by decide +kernel⟩
example : ∀ u ∈ ["a", "b", "c", "d", "e"], ∀ v ∈ exTwoParts u, Reach exTwoParts v u := by
  have h : ∀ u ∈ ["a", "b", "c", "d", "e"], ∀ v ∈ exTwoParts u, u ∈ exTwoParts v := by decide +kernel
  exact fun u hu v hv => ⟨1, .snoc .nil (h u hu v hv)⟩
example : kosaraju ["a", "b", "c", "d", "e"] (fun x => .ok (exTwoParts x)) 30 = .ok [["d", "e"], ["a", "b", "c"]] := by decide +kernel

end Props
