import Mathlib.Logic.Relation
import Mathlib.Order.Basic
import Mathlib.Data.List.Nodup
import Mathlib.Data.String.Basic
import Mathlib.Data.List.Chain
import Verif.Model.Bridges
import Verif.Props.Scc
import Verif.Props.Graph

/-! # C71: bridges -/
set_option linter.unusedSectionVars false
namespace Props
open Py Model Spec

/-- The neighbours without the edge between `u` and `v`. -/
def without (nbr : String → List String) (u v : String) (x : String) : List String :=
  (nbr x).filter fun y => decide (¬ ((x = u ∧ y = v) ∨ (x = v ∧ y = u)))

/-- The edge between `u` and `v` is a bridge: without it, `v` cannot be reached from `u`. -/
def IsBridge (nbr : String → List String) (u v : String) : Prop := v ∈ nbr u ∧ ¬ Reach (without nbr u v) u v

/-- A step over another edge than that between `u` and `v`. -/
def Cut (nbr : String → List String) (u v a b : String) : Prop := b ∈ nbr a ∧ ¬ ((a = u ∧ b = v) ∨ (a = v ∧ b = u))

abbrev Star {α : Type} (r : α → α → Prop) := Relation.ReflTransGen r

theorem star_mono {α : Type} {r p : α → α → Prop} (h : ∀ a b, r a b → p a b) {a b : α} (hs : Star r a b) : Star p a b := by
  induction hs with
  | refl => exact .refl
  | tail _ h1 ih => exact ih.tail (h _ _ h1)

theorem reach_iff_star {nbr : String → List String} {u v : String} : Reach nbr u v ↔ Star (fun a b => b ∈ nbr a) u v := by
  constructor
  · intro ⟨n, h⟩
    induction h with
    | nil => exact .refl
    | snoc _ hw ih => exact ih.tail hw
  · intro h
    induction h with
    | refl => exact Reach.refl _ _
    | tail _ hw ih => exact ih.snoc hw

theorem isBridge_iff {nbr : String → List String} {u v : String} : IsBridge nbr u v ↔ v ∈ nbr u ∧ ¬ Star (Cut nbr u v) u v := by
  rw [IsBridge, reach_iff_star]
  have : (fun a b => b ∈ without nbr u v a) = Cut nbr u v := by
    funext a b
    simp only [without, Cut, List.mem_filter, decide_eq_true_eq]
  rw [this]

section
variable {vs : List String} {nbr : String → List String}

theorem Cut.symm (hsym : ∀ x y, y ∈ nbr x → x ∈ nbr y) {u v a b : String} (h : Cut nbr u v a b) : Cut nbr u v b a :=
  ⟨hsym _ _ h.1, fun e => h.2 (by rcases e with ⟨rfl, rfl⟩ | ⟨rfl, rfl⟩; exact Or.inr ⟨rfl, rfl⟩; exact Or.inl ⟨rfl, rfl⟩)⟩

theorem Cut.star_symm (hsym : ∀ x y, y ∈ nbr x → x ∈ nbr y) {u v a b : String} (h : Star (Cut nbr u v) a b) : Star (Cut nbr u v) b a := by
  induction h with
  | refl => exact .refl
  | tail _ h ih => exact Relation.ReflTransGen.head (h.symm hsym) ih

theorem Cut.swap {u v a b : String} (h : Star (Cut nbr u v) a b) : Star (Cut nbr v u) a b := by
  refine star_mono ?_ h
  intro x y h
  exact ⟨h.1, fun e => h.2 e.symm⟩

/-- The state of the search, by names. -/
structure BAbs where
  vis : String → Bool
  disc : String → Int
  low : String → Int
  par : String → Option String
  br : List (String × String)
  time : Int

def parNum (vs : List String) : Option String → Int
  | none => -1
  | some p => (vs.idxOf p : Int)

/-- The state of the program. -/
def BAbs.conc (vs : List String) (A : BAbs) : Bridges :=
  ⟨vs.map A.vis, vs.map A.disc, vs.map A.low, vs.map fun v => parNum vs (A.par v), A.br.map fun e => (vs.idxOf e.1, vs.idxOf e.2), A.time⟩

def putAt {β : Type} (f : String → β) (v : String) (x : β) (w : String) : β := if w = v then x else f w

theorem rd_name {β : Type} {f : String → β} {v : String} (hv : v ∈ vs) : rd (vs.map f) (vs.idxOf v) = .ok (f v) := by
  have h := List.idxOf_lt_length_of_mem hv
  rw [rd_of_lt (by simpa using h)]
  simp

theorem wr_name {β : Type} {f : String → β} (hn : vs.Nodup) {v : String} (hv : v ∈ vs) (x : β) :
    wr (vs.map f) (vs.idxOf v) x = .ok (vs.map (putAt f v x)) := by
  have h := List.idxOf_lt_length_of_mem hv
  rw [wr_of_lt _ (by simpa using h)]
  congr 1
  apply List.ext_getElem
  · simp
  · intro i h1 h2
    have hi : i < vs.length := by simpa using h2
    rw [List.getElem_set]
    simp only [List.getElem_map, putAt]
    by_cases e : vs.idxOf v = i
    · subst e; simp
    · have : vs[i] ≠ v := by
        intro e'
        apply e
        rw [← e']
        exact List.Nodup.idxOf_getElem hn i hi
      simp [e, this]

def BAbs.enter (A : BAbs) (u : String) : BAbs :=
  { A with vis := putAt A.vis u true, disc := putAt A.disc u A.time, low := putAt A.low u A.time, time := A.time + 1 }

def BAbs.lower (A : BAbs) (u : String) (x : Int) : BAbs := { A with low := putAt A.low u (if x < A.low u then x else A.low u) }

theorem brEnter_conc (hn : vs.Nodup) {u : String} (hu : u ∈ vs) (A : BAbs) : brEnter (vs.idxOf u) (A.conc vs) = .ok ((A.enter u).conc vs) := by
  simp only [brEnter, BAbs.conc, wr_name hn hu, ok_bind]
  rfl

theorem brLower_conc (hn : vs.Nodup) {u : String} (hu : u ∈ vs) (A : BAbs) (x : Int) :
    brLower (vs.idxOf u) x (A.conc vs) = .ok ((A.lower u x).conc vs) := by
  simp only [brLower, BAbs.conc, rd_name hu, ok_bind, wr_name hn hu]
  rfl

def BAbs.report (A : BAbs) (u v : String) : BAbs := { A with br := if A.low v > A.disc u then A.br ++ [(u, v)] else A.br }

theorem brReport_conc {u v : String} (hu : u ∈ vs) (hv : v ∈ vs) (A : BAbs) :
    brReport (vs.idxOf u) (vs.idxOf v) (A.conc vs) = .ok ((A.report u v).conc vs) := by
  simp only [brReport, BAbs.conc, rd_name hu, rd_name hv, ok_bind, BAbs.report]
  split <;> simp

def BAbs.setPar (A : BAbs) (v u : String) : BAbs := { A with par := putAt A.par v (some u) }

theorem setPar_conc (hn : vs.Nodup) {v : String} (hv : v ∈ vs) (A : BAbs) (u : String) :
    wr (A.conc vs).parent (vs.idxOf v) (vs.idxOf u : Int) = .ok ((A.setPar v u).conc vs).parent := by
  simp only [BAbs.conc, wr_name hn hv, BAbs.setPar]
  congr 1
  refine List.map_congr_left fun w _ => ?_
  simp only [putAt]
  split <;> rfl

/-- Tree edges. -/
def TreeStep (A : BAbs) (a b : String) : Prop := (A.vis a = true ∧ A.par a = some b) ∨ (A.vis b = true ∧ A.par b = some a)

theorem treeStar_symm {A : BAbs} {a b : String} (h : Star (TreeStep A) a b) : Star (TreeStep A) b a := by
  induction h with
  | refl => exact .refl
  | tail _ h ih => exact Relation.ReflTransGen.head h.symm ih

theorem treeStar_mono {A A' : BAbs} (h : ∀ x, A.vis x = true → A'.vis x = true ∧ A'.par x = A.par x) {a b : String} (hs : Star (TreeStep A) a b) :
    Star (TreeStep A') a b := by
  refine star_mono ?_ hs
  intro x y hxy
  rcases hxy with ⟨h1, h2⟩ | ⟨h1, h2⟩
  · exact Or.inl ⟨(h x h1).1, by rw [(h x h1).2]; exact h2⟩
  · exact Or.inr ⟨(h y h1).1, by rw [(h y h1).2]; exact h2⟩

/-- The invariant: `gray` are the vertices being searched, the last one first; the edges from their parents to the vertices of `op` are not yet
classified. -/
structure BrInv (vs : List String) (nbr : String → List String) (gray op : List String) (A : BAbs) : Prop where
  visv : ∀ x, A.vis x = true → x ∈ vs ∧ A.disc x < A.time
  gvis : ∀ x ∈ gray, A.vis x = true
  gchain : gray.IsChain fun a b => A.par a = some b ∧ a ∈ nbr b
  gsort : gray.Pairwise fun a b => A.disc b < A.disc a
  black : ∀ x, A.vis x = true → x ∉ gray → ∀ y ∈ nbr x, A.vis y = true ∧ Star (TreeStep A) x y
  tree : ∀ x p, A.vis x = true → A.par x = some p → A.vis p = true ∧ x ∈ nbr p ∧ A.disc p < A.disc x
  rep : ∀ e ∈ A.br, A.vis e.2 = true ∧ e.2 ∉ op ∧ A.par e.2 = some e.1 ∧ ¬ Star (Cut nbr e.1 e.2) e.1 e.2
  all : ∀ x p, A.vis x = true → x ∉ op → A.par x = some p → (p, x) ∈ A.br ∨ Star (Cut nbr p x) p x
  nodup : (A.br.map (·.2)).Nodup

/-- Newly visited. -/
def BrNew (A A' : BAbs) (x : String) : Prop := A'.vis x = true ∧ A.vis x = false

/-- What the search from `u` does. -/
structure BrPost (nbr : String → List String) (u : String) (A A' : BAbs) : Prop where
  vmono : ∀ x, A.vis x = true → A'.vis x = true
  visu : A'.vis u = true
  kept : ∀ x, A.vis x = true → A'.disc x = A.disc x ∧ A'.low x = A.low x ∧ A'.par x = A.par x
  fresh : ∀ x, BrNew A A' x → A.time ≤ A'.disc x
  paru : A'.par u = A.par u
  lowle : A'.low u ≤ A'.disc u
  out : ∀ x, BrNew A A' x → ∀ y ∈ nbr x, BrNew A A' y ∨ (x = u ∧ A.par u = some y) ∨ (A.vis y = true ∧ A'.low u ≤ A'.disc y)
  wit : A'.low u = A'.disc u ∨ ∃ x y, BrNew A A' x ∧ Star (fun a b => b ∈ nbr a ∧ BrNew A A' a ∧ BrNew A A' b) u x ∧ y ∈ nbr x ∧ A'.vis y = true ∧
    A'.disc y = A'.low u ∧ A'.par x ≠ some y
  idle : ∀ x, A'.vis x = false → A'.par x = A.par x

theorem chain_star {par : String → Option String} : ∀ (h : String) (l : List String),
    (h :: l).IsChain (fun a b => par a = some b ∧ a ∈ nbr b) →
    ∀ y ∈ h :: l, Star (fun a b => b ∈ nbr a ∧ a ∈ h :: l ∧ b ∈ h :: l) y h := by
  intro h l
  induction l generalizing h with
  | nil => intro _ y hy; have : y = h := by simpa using hy
           subst this; exact .refl
  | cons b l ih =>
    intro hc y hy
    rw [List.isChain_cons_cons] at hc
    rcases List.mem_cons.1 hy with rfl | hy
    · exact .refl
    · refine Relation.ReflTransGen.tail (star_mono ?_ (ih b hc.2 y hy)) ⟨hc.1.2, by simp, by simp⟩
      intro p q hpq
      exact ⟨hpq.1, by simp [hpq.2.1], by simp [hpq.2.2]⟩

theorem chain_tree {A : BAbs} : ∀ (h : String) (l : List String),
    (h :: l).IsChain (fun a b => A.par a = some b ∧ a ∈ nbr b) → (∀ x ∈ h :: l, A.vis x = true) →
    ∀ y ∈ h :: l, Star (TreeStep A) h y := by
  intro h l
  induction l generalizing h with
  | nil => intro _ _ y hy; have : y = h := by simpa using hy
           subst this; exact .refl
  | cons b l ih =>
    intro hc hv y hy
    rw [List.isChain_cons_cons] at hc
    rcases List.mem_cons.1 hy with rfl | hy
    · exact .refl
    · exact Relation.ReflTransGen.head (Or.inl ⟨hv h (by simp), hc.1.1⟩) (ih b hc.2 (fun x hx => hv x (by simp [hx])) y hy)

/-- The last gray vertex has the greatest number. -/
theorem BrInv.disc_le {gray op : List String} {A : BAbs} {u : String} (h : BrInv vs nbr (u :: gray) op A) : ∀ y ∈ u :: gray, A.disc y ≤ A.disc u := by
  intro y hy
  rcases List.mem_cons.1 hy with rfl | hy
  · exact Int.le_refl _
  · exact Int.le_of_lt ((List.pairwise_cons.1 h.gsort).1 y hy)

/-- A visited neighbour of a vertex not visited is gray. -/
theorem BrInv.gray_of (hsym : ∀ x y, y ∈ nbr x → x ∈ nbr y) {gray op : List String} {A : BAbs} (h : BrInv vs nbr gray op A) {x y : String} (hx : A.vis x = false)
    (hy : A.vis y = true) (he : y ∈ nbr x) : y ∈ gray := by
  refine Classical.byContradiction fun hg => ?_
  have := (h.black y hy hg x (hsym _ _ he)).1
  rw [hx] at this
  cases this

/-- The classification of the edge to the child `v` of `u`. -/
theorem child_bridge (hsym : ∀ x y, y ∈ nbr x → x ∈ nbr y) {gray op : List String} {B C : BAbs} {u v : String} (hI : BrInv vs nbr (u :: gray) op B)
    (hv : B.vis v = false) (hp : B.par v = some u) (hP : BrPost nbr v B C) :
    (C.low v > C.disc u → ¬ Star (Cut nbr u v) u v) ∧ (¬ C.low v > C.disc u → Star (Cut nbr u v) u v) := by
  have hu : B.vis u = true := hI.gvis u (by simp)
  have hdu : C.disc u = B.disc u := (hP.kept u hu).1
  have nv : BrNew B C v := ⟨hP.visu, hv⟩
  constructor
  · intro hlow hs
    have key : ∀ z, Star (Cut nbr u v) v z → BrNew B C z := by
      intro z hs
      induction hs with
      | refl => exact nv
      | @tail a b _ hab ih =>
        rcases hP.out a ih b hab.1 with h | ⟨rfl, h⟩ | ⟨h1, h2⟩
        · exact h
        · rw [hp] at h
          cases h
          exact absurd (Or.inr ⟨rfl, rfl⟩) hab.2
        · have := hI.gray_of hsym ih.2 h1 hab.1
          have h3 := hI.disc_le b this
          have h4 := (hP.kept b h1).1
          have h5 := (hP.kept u (hI.gvis u (by simp))).1
          omega
    rw [(key u (Cut.star_symm hsym hs)).2] at hu
    cases hu
  · intro hlow
    have hd := (hI.visv u hu).2
    have hfv := hP.fresh v nv
    rcases hP.wit with h | ⟨x, y, hx, hst, hxy, hyv, hyd, hpx⟩
    · omega
    · have hyB : B.vis y = true := by
        cases hy : B.vis y with
        | true => rfl
        | false => have := hP.fresh y ⟨hyv, hy⟩; omega
      have hyg := hI.gray_of hsym hx.2 hyB hxy
      have p1 : Star (Cut nbr u v) v x := by
        refine star_mono ?_ hst
        intro a b ⟨h1, h2, h3⟩
        refine ⟨h1, fun e => ?_⟩
        rcases e with ⟨rfl, _⟩ | ⟨_, rfl⟩
        · rw [h2.2] at hu; cases hu
        · rw [h3.2] at hu; cases hu
      have p2 : Cut nbr u v x y := by
        refine ⟨hxy, fun e => ?_⟩
        rcases e with ⟨rfl, _⟩ | ⟨rfl, rfl⟩
        · rw [hx.2] at hu; cases hu
        · exact hpx (hP.paru.trans hp)
      have p3 : Star (Cut nbr u v) y u := by
        refine star_mono ?_ (chain_star u gray hI.gchain y hyg)
        intro a b ⟨h1, h2, h3⟩
        refine ⟨h1, fun e => ?_⟩
        rcases e with ⟨_, rfl⟩ | ⟨rfl, _⟩
        · rw [hI.gvis _ h3] at hv; cases hv
        · rw [hI.gvis _ h2] at hv; cases hv
      exact Cut.star_symm hsym ((p1.tail p2).trans p3)

/-- The state inside the loop over the neighbours of `u`; `A0` is the state at the call. -/
structure BrLoop (vs : List String) (nbr : String → List String) (u : String) (gray : List String) (A0 : BAbs) (done : List String) (A : BAbs) : Prop where
  inv : BrInv vs nbr (u :: gray) (u :: gray) A
  vmono : ∀ x, A0.vis x = true → A.vis x = true
  kept : ∀ x, A0.vis x = true → A.disc x = A0.disc x ∧ A.low x = A0.low x ∧ A.par x = A0.par x
  fresh : ∀ x, BrNew A0 A x → A0.time ≤ A.disc x
  paru : A.par u = A0.par u
  du : A.disc u = A0.time
  lowle : A.low u ≤ A.disc u
  out : ∀ x, BrNew A0 A x → x ≠ u → ∀ y ∈ nbr x, BrNew A0 A y ∨ (A0.vis y = true ∧ A.low u ≤ A.disc y)
  outu : ∀ y ∈ done, BrNew A0 A y ∨ A0.par u = some y ∨ (A0.vis y = true ∧ A.low u ≤ A.disc y)
  wit : A.low u = A.disc u ∨ ∃ x y, BrNew A0 A x ∧ Star (fun a b => b ∈ nbr a ∧ BrNew A0 A a ∧ BrNew A0 A b) u x ∧ y ∈ nbr x ∧ A.vis y = true ∧
    A.disc y = A.low u ∧ A.par x ≠ some y
  seen : ∀ y ∈ done, A.vis y = true ∧ Star (TreeStep A) u y
  idle : ∀ x, A.vis x = false → A.par x = A0.par x

def notVisited (vs : List String) (A : BAbs) : Nat := unvisited vs fun v => if A.vis v = true then 0 else -1

def BrSpec (vs : List String) (nbr : String → List String) (adj : List (List Nat)) (N : Nat) : Prop :=
  ∀ (u : String) (A : BAbs) (gray : List String), u ∈ vs → A.vis u = false → notVisited vs A ≤ N → BrInv vs nbr gray gray A →
    A.par u = gray.head? → (∀ g, gray.head? = some g → u ∈ nbr g) →
    ∃ A', (∀ fuel, N ≤ fuel → brDfs adj fuel (vs.idxOf u) (A.conc vs) = .ok (A'.conc vs)) ∧ BrInv vs nbr gray (u :: gray) A' ∧ BrPost nbr u A A'

theorem BrInv.setPar {gray op : List String} {A : BAbs} {v u : String} (h : BrInv vs nbr gray op A) (hv : A.vis v = false) :
    BrInv vs nbr gray op (A.setPar v u) := by
  have hk : ∀ x, A.vis x = true → (A.setPar v u).par x = A.par x := by
    intro x hx
    have : x ≠ v := fun e => by rw [e, hv] at hx; cases hx
    simp [BAbs.setPar, putAt, this]
  refine ⟨h.visv, h.gvis, ?_, h.gsort, ?_, ?_, ?_, ?_, h.nodup⟩
  · refine List.IsChain.imp_of_mem_imp ?_ h.gchain
    intro a b ha hb ⟨h1, h2⟩
    exact ⟨by rw [hk a (h.gvis a ha)]; exact h1, h2⟩
  · intro x hx hg y hy
    obtain ⟨h1, h2⟩ := h.black x hx hg y hy
    exact ⟨h1, treeStar_mono (A := A) (A' := A.setPar v u) (fun z hz => ⟨hz, hk z hz⟩) h2⟩
  · intro x p hx hp
    rw [hk x hx] at hp
    exact h.tree x p hx hp
  · intro e he
    obtain ⟨h1, h2, h3, h4⟩ := h.rep e he
    exact ⟨h1, h2, by rw [hk _ h1]; exact h3, h4⟩
  · intro x p hx ho hp
    rw [hk x hx] at hp
    exact h.all x p hx ho hp

theorem BrInv.lower {gray op : List String} {A : BAbs} {u : String} {x : Int} (h : BrInv vs nbr gray op A) : BrInv vs nbr gray op (A.lower u x) :=
  ⟨h.visv, h.gvis, h.gchain, h.gsort, h.black, h.tree, h.rep, h.all, h.nodup⟩

/-- The vertex `u` has been searched completely. -/
theorem BrLoop.leave {u : String} {gray : List String} {A0 A : BAbs} (hu0 : A0.vis u = false)
    (h : BrLoop vs nbr u gray A0 (nbr u) A) : BrInv vs nbr gray (u :: gray) A ∧ BrPost nbr u A0 A := by
  have hI := h.inv
  have hvu : A.vis u = true := hI.gvis u (by simp)
  constructor
  · refine ⟨hI.visv, fun x hx => hI.gvis x (by simp [hx]), ?_, (List.pairwise_cons.1 hI.gsort).2, ?_, hI.tree, hI.rep, hI.all, hI.nodup⟩
    · have := hI.gchain
      cases gray with
      | nil => exact .nil
      | cons a l => exact (List.isChain_cons_cons.1 this).2
    · intro x hx hg y hy
      by_cases hxu : x = u
      · subst hxu; exact h.seen y hy
      · exact hI.black x hx (by simp [hxu, hg]) y hy
  · refine ⟨h.vmono, hvu, h.kept, h.fresh, h.paru, h.lowle, ?_, h.wit, h.idle⟩
    intro x hx y hy
    by_cases hxu : x = u
    · subst hxu
      rcases h.outu y hy with h1 | h1 | h1
      · exact Or.inl h1
      · exact Or.inr (Or.inl ⟨rfl, h1⟩)
      · exact Or.inr (Or.inr h1)
    · rcases h.out x hx hxu y hy with h1 | h1
      · exact Or.inl h1
      · exact Or.inr (Or.inr h1)

theorem BrInv.enter {u : String} {gray : List String} {A : BAbs} (hu : u ∈ vs) (hu0 : A.vis u = false) (h : BrInv vs nbr gray gray A)
    (hp : A.par u = gray.head?) (hg : ∀ g, gray.head? = some g → u ∈ nbr g) : BrInv vs nbr (u :: gray) (u :: gray) (A.enter u) := by
  have hne : ∀ x, A.vis x = true → x ≠ u := fun x hx e => by rw [e, hu0] at hx; cases hx
  have hv : ∀ x, (A.enter u).vis x = true ↔ x = u ∨ A.vis x = true := by
    intro x; simp only [BAbs.enter, putAt]; split <;> simp_all
  have hd : ∀ x, A.vis x = true → (A.enter u).disc x = A.disc x := by
    intro x hx; simp [BAbs.enter, putAt, hne x hx]
  have hdu : (A.enter u).disc u = A.time := by simp [BAbs.enter, putAt]
  have hT : ∀ a b, Star (TreeStep A) a b → Star (TreeStep (A.enter u)) a b := fun a b hs =>
    treeStar_mono (fun x hx => ⟨(hv x).2 (Or.inr hx), rfl⟩) hs
  refine ⟨?_, ?_, ?_, ?_, ?_, ?_, ?_, ?_, h.nodup⟩
  · intro x hx
    rcases (hv x).1 hx with rfl | hx
    · exact ⟨hu, by rw [hdu]; simp only [BAbs.enter]; omega⟩
    · obtain ⟨h1, h2⟩ := h.visv x hx
      exact ⟨h1, by rw [hd x hx]; simp only [BAbs.enter]; omega⟩
  · intro x hx
    rcases List.mem_cons.1 hx with rfl | hx
    · exact (hv _).2 (Or.inl rfl)
    · exact (hv x).2 (Or.inr (h.gvis x hx))
  · cases gray with
    | nil => exact .singleton _
    | cons g l =>
      refine List.isChain_cons_cons.2 ⟨⟨hp, hg g rfl⟩, h.gchain⟩
  · refine List.pairwise_cons.2 ⟨?_, ?_⟩
    · intro y hy
      rw [hdu, hd y (h.gvis y hy)]
      exact (h.visv y (h.gvis y hy)).2
    · refine List.Pairwise.imp_of_mem ?_ h.gsort
      intro a b ha hb hab
      rw [hd a (h.gvis a ha), hd b (h.gvis b hb)]
      exact hab
  · intro x hx hxg y hy
    have hxu : x ≠ u := fun e => hxg (by simp [e])
    have hx' : A.vis x = true := ((hv x).1 hx).resolve_left hxu
    obtain ⟨h1, h2⟩ := h.black x hx' (fun e => hxg (by simp [e])) y hy
    exact ⟨(hv y).2 (Or.inr h1), hT _ _ h2⟩
  · intro x p hx hp'
    rcases (hv x).1 hx with rfl | hx'
    · have hp' : A.par x = some p := hp'
      rw [hp] at hp'
      have hpg : p ∈ gray := List.mem_of_mem_head? (by rw [hp']; simp)
      have hpv := h.gvis p hpg
      refine ⟨(hv p).2 (Or.inr hpv), hg p hp', ?_⟩
      rw [hdu, hd p hpv]
      exact (h.visv p hpv).2
    · obtain ⟨h1, h2, h3⟩ := h.tree x p hx' hp'
      exact ⟨(hv p).2 (Or.inr h1), h2, by rw [hd x hx', hd p h1]; exact h3⟩
  · intro e he
    obtain ⟨h1, h2, h3, h4⟩ := h.rep e he
    exact ⟨(hv _).2 (Or.inr h1), by simp [hne _ h1, h2], h3, h4⟩
  · intro x p hx hxo hp'
    have hxu : x ≠ u := fun e => hxo (by simp [e])
    exact h.all x p (((hv x).1 hx).resolve_left hxu) (fun e => hxo (by simp [e])) hp'

theorem BrLoop.start {u : String} {gray : List String} {A : BAbs} (hu : u ∈ vs) (hu0 : A.vis u = false) (h : BrInv vs nbr gray gray A)
    (hp : A.par u = gray.head?) (hg : ∀ g, gray.head? = some g → u ∈ nbr g) : BrLoop vs nbr u gray A [] (A.enter u) := by
  have hne : ∀ x, A.vis x = true → x ≠ u := fun x hx e => by rw [e, hu0] at hx; cases hx
  have hnew : ∀ x, BrNew A (A.enter u) x → x = u := by
    intro x ⟨h1, h2⟩
    refine Classical.byContradiction fun e => ?_
    simp only [BAbs.enter, putAt, e, if_false, h2] at h1
    cases h1
  refine ⟨h.enter hu hu0 hp hg, ?_, ?_, ?_, rfl, ?_, ?_, ?_, by simp, Or.inl ?_, by simp, fun _ _ => rfl⟩
  · intro x hx; simp [BAbs.enter, putAt, hx]
  · intro x hx; simp [BAbs.enter, putAt, hne x hx]
  · intro x hx; rw [hnew x hx]; simp [BAbs.enter, putAt]
  · simp [BAbs.enter, putAt]
  · simp [BAbs.enter, putAt]
  · intro x hx hxu; exact absurd (hnew x hx) hxu
  · simp [BAbs.enter, putAt]

theorem parNum_eq {v : String} (hv : v ∈ vs) {o : Option String} (ho : ∀ p, o = some p → p ∈ vs) : (vs.idxOf v : Int) = parNum vs o ↔ o = some v := by
  cases o with
  | none => simp only [parNum]; constructor <;> intro h
            · omega
            · cases h
  | some p =>
    simp only [parNum, Option.some.injEq]
    constructor
    · intro h
      have h : vs.idxOf v = vs.idxOf p := by omega
      have h1 := List.getElem_idxOf (List.idxOf_lt_length_of_mem hv)
      have h2 := List.getElem_idxOf (List.idxOf_lt_length_of_mem (ho p rfl))
      rw [← h1, ← h2]
      simp [h]
    · rintro rfl; rfl

/-- One neighbour. -/
theorem brNeighbor_spec (hn : vs.Nodup) (hsym : ∀ x y, y ∈ nbr x → x ∈ nbr y) (hcl : ∀ v ∈ vs, ∀ w ∈ nbr v, w ∈ vs) {adj : List (List Nat)} {N : Nat}
    (ih : BrSpec vs nbr adj N) {u : String} (hu : u ∈ vs) {gray : List String} {A0 : BAbs} (hu0 : A0.vis u = false) (hN : notVisited vs A0 ≤ N + 1)
    {done : List String} {A : BAbs} (h : BrLoop vs nbr u gray A0 done A) {v : String} (hv : v ∈ nbr u) :
    ∃ A', (∀ fuel, N ≤ fuel → brNeighbor (brDfs adj fuel) (vs.idxOf u) (vs.idxOf v) (A.conc vs) = .ok (A'.conc vs)) ∧
      BrLoop vs nbr u gray A0 (done ++ [v]) A' := by
  have hvv := hcl u hu v hv
  have hI := h.inv
  have hvu : A.vis u = true := hI.gvis u (by simp)
  have hdu := (hI.visv u hvu).2
  cases hvis : A.vis v with
  | false =>
    have hvu' : v ≠ u := fun e => by rw [e, hvu] at hvis; cases hvis
    -- the recursive call
    let B := A.setPar v u
    have hIB : BrInv vs nbr (u :: gray) (u :: gray) B := hI.setPar hvis
    have hpB : B.par v = some u := by simp [B, BAbs.setPar, putAt]
    have hmono : ∀ x, (fun v => if A0.vis v = true then (0 : Int) else -1) x ≠ -1 → (fun v => if B.vis v = true then (0 : Int) else -1) x ≠ -1 := by
      intro x hx
      have : A0.vis x = true := by
        refine Classical.byContradiction fun e => hx ?_
        simp [e]
      have : B.vis x = true := h.vmono x this
      simp [this]
    have hlt := unvisited_lt hmono (u := u) (by simp [hu0]) (by
      have : B.vis u = true := hvu
      simp [this]) vs hu
    obtain ⟨C, eC, hIC, hP⟩ := ih v B (u :: gray) hvv hvis (by simp only [notVisited] at hN ⊢; omega) hIB (by simpa using hpB) (by
      intro g hg; cases hg; exact hv)
    have hcb := child_bridge hsym hIB hvis hpB hP
    have hu2 : BrNew B C v := ⟨hP.visu, hvis⟩
    have kB : ∀ x, A.vis x = true → C.vis x = true ∧ C.disc x = A.disc x ∧ C.low x = A.low x ∧ C.par x = A.par x := by
      intro x hx
      have hxv : x ≠ v := fun e => by rw [e, hvis] at hx; cases hx
      obtain ⟨h1, h2, h3⟩ := hP.kept x hx
      refine ⟨hP.vmono x hx, h1, h2, ?_⟩
      rw [h3]
      simp [B, BAbs.setPar, putAt, hxv]
    have hfv := hP.fresh v hu2
    have hlow_u : C.low u = A.low u := (kB u hvu).2.2.1
    have hdisc_u : C.disc u = A.disc u := (kB u hvu).2.1
    -- the new low of `u`
    let D := C.lower u (C.low v)
    have hDlow : D.low u = if C.low v < A.low u then C.low v else A.low u := by
      simp only [D, BAbs.lower, putAt, if_true, hlow_u]
    have hDv : D.low v = C.low v := by simp [D, BAbs.lower, putAt, hvu']
    have hle1 : D.low u ≤ A.low u := by rw [hDlow]; split <;> omega
    have hle2 : D.low u ≤ C.low v := by rw [hDlow]; split <;> omega
    have hnewC : ∀ x, BrNew A0 A x → BrNew A0 C x := fun x hx => ⟨(kB x hx.1).1, hx.2⟩
    have hnewBC : ∀ x, BrNew B C x → BrNew A0 C x := by
      intro x hx
      refine ⟨hx.1, ?_⟩
      cases h0 : A0.vis x with
      | false => rfl
      | true => have := h.vmono x h0; rw [show A.vis x = false from hx.2] at this; cases this
    have hsplit : ∀ x, BrNew A0 C x → BrNew A0 A x ∨ BrNew B C x := by
      intro x hx
      cases hA : A.vis x with
      | true => exact Or.inl ⟨hA, hx.2⟩
      | false => exact Or.inr ⟨hx.1, hA⟩
    refine ⟨D.report u v, ?_, ?_⟩
    · intro fuel hf
      have e1 : rd (A.conc vs).visited (vs.idxOf v) = .ok (A.vis v) := rd_name hvv
      have e2 : rd (C.conc vs).low (vs.idxOf v) = .ok (C.low v) := rd_name hvv
      have e3 := setPar_conc hn hvv A u
      have e4 : ({ A.conc vs with parent := ((A.setPar v u).conc vs).parent } : Bridges) = B.conc vs := rfl
      simp only [brNeighbor, e1, hvis, ok_bind, if_true, e3, e4, eC fuel hf, e2, brLower_conc hn hu, brReport_conc hu hvv]
      rfl
    · have hgt : D.low v > D.disc u ↔ C.low v > C.disc u := by rw [hDv]; rfl
      have hDbr : (D.report u v).br = if C.low v > C.disc u then C.br ++ [(u, v)] else C.br := by
        simp only [BAbs.report, hgt]; rfl
      have hvg : v ∉ u :: gray := fun e => by rw [hI.gvis v e] at hvis; cases hvis
      have hTC : ∀ a b, Star (TreeStep A) a b → Star (TreeStep (D.report u v)) a b := fun a b hs =>
        treeStar_mono (A := A) (fun x hx => ⟨(kB x hx).1, (kB x hx).2.2.2⟩) hs
      have hCpv : C.par v = some u := hP.paru.trans hpB
      refine ⟨⟨hIC.visv, hIC.gvis, hIC.gchain, hIC.gsort, hIC.black, hIC.tree, ?_, ?_, ?_⟩, ?_, ?_, ?_, ?_, ?_, ?_, ?_, ?_, ?_, ?_, ?_⟩
      · intro e he
        rw [hDbr] at he
        have old : ∀ e ∈ C.br, C.vis e.2 = true ∧ e.2 ∉ u :: gray ∧ C.par e.2 = some e.1 ∧ ¬ Star (Cut nbr e.1 e.2) e.1 e.2 := by
          intro e he
          obtain ⟨h1, h2, h3, h4⟩ := hIC.rep e he
          exact ⟨h1, fun e' => h2 (by simp [List.mem_cons.1 e']), h3, h4⟩
        split at he
        · next hb =>
          rcases List.mem_append.1 he with he | he
          · exact old e he
          · have : e = (u, v) := by simpa using he
            subst this
            exact ⟨hP.visu, hvg, hCpv, hcb.1 hb⟩
        · exact old e he
      · intro x p hx hxo hp
        rw [hDbr]
        have hpC : C.par x = some p := hp
        clear hp
        by_cases hxv : x = v
        · subst hxv
          rw [hCpv] at hpC
          cases hpC
          split
          · left; simp
          · next hb => exact Or.inr (hcb.2 hb)
        · rcases hIC.all x p hx (by simp [hxv]; simpa using hxo) hpC with h1 | h1
          · left; split
            · simp [h1]
            · exact h1
          · exact Or.inr h1
      · rw [hDbr]
        split
        · rw [List.map_append, List.nodup_append]
          refine ⟨hIC.nodup, by simp, ?_⟩
          intro a ha b hb
          obtain ⟨e, he, rfl⟩ := List.mem_map.1 ha
          have := (hIC.rep e he).2.1
          have hb : b = v := by simpa using hb
          subst hb
          intro e'
          exact this (by simp [e'])
        · exact hIC.nodup
      · intro x hx; exact (kB x (h.vmono x hx)).1
      · intro x hx
        obtain ⟨h1, h2, h3⟩ := h.kept x hx
        obtain ⟨_, k1, k2, k3⟩ := kB x (h.vmono x hx)
        have hxu : x ≠ u := fun e => by rw [e, hu0] at hx; cases hx
        refine ⟨k1.trans h1, ?_, k3.trans h3⟩
        show D.low x = _
        simp only [D, BAbs.lower, putAt, hxu, if_false]
        exact k2.trans h2
      · intro x hx
        rcases hsplit x ⟨hx.1, hx.2⟩ with h1 | h1
        · have := h.fresh x h1
          have e := (kB x h1.1).2.1
          show A0.time ≤ C.disc x
          omega
        · have := hP.fresh x h1
          show A0.time ≤ C.disc x
          have e := h.du
          have e2 : B.time = A.time := rfl
          omega
      · exact (kB u hvu).2.2.2.trans h.paru
      · exact (kB u hvu).2.1.trans h.du
      · have := h.lowle
        show D.low u ≤ C.disc u
        omega
      · intro x hx hxu y hy
        rcases hsplit x ⟨hx.1, hx.2⟩ with h1 | h1
        · rcases h.out x h1 hxu y hy with h2 | ⟨h2, h3⟩
          · exact Or.inl (hnewC y h2)
          · refine Or.inr ⟨h2, ?_⟩
            have := (kB y (h.vmono y h2)).2.1
            show D.low u ≤ C.disc y
            omega
        · rcases hP.out x h1 y hy with h2 | ⟨rfl, h2⟩ | ⟨h2, h3⟩
          · exact Or.inl (hnewBC y h2)
          · rw [hpB] at h2
            cases h2
            exact Or.inl ⟨(kB u hvu).1, hu0⟩
          · cases h0 : A0.vis y with
            | false => exact Or.inl ⟨(kB y h2).1, h0⟩
            | true => exact Or.inr ⟨rfl, Int.le_trans hle2 h3⟩
      · intro y hy
        rcases List.mem_append.1 hy with hy | hy
        · rcases h.outu y hy with h1 | h1 | ⟨h1, h2⟩
          · exact Or.inl (hnewC y h1)
          · exact Or.inr (Or.inl h1)
          · refine Or.inr (Or.inr ⟨h1, ?_⟩)
            have := (kB y (h.vmono y h1)).2.1
            show D.low u ≤ C.disc y
            omega
        · have hy : y = v := by simpa using hy
          subst hy
          exact Or.inl (hnewBC y hu2)
      · by_cases hlt' : C.low v < A.low u
        · have hDu : D.low u = C.low v := by rw [hDlow, if_pos hlt']
          rcases hP.wit with hw | ⟨x, y, hx, hst, hxy, hyv, hyd, hpx⟩
          · have := h.lowle
            have e2 : B.time = A.time := rfl
            omega
          · refine Or.inr ⟨x, y, hnewBC x hx, ?_, hxy, hyv, hyd.trans hDu.symm, hpx⟩
            refine Relation.ReflTransGen.head (b := v) ⟨hv, ⟨(kB u hvu).1, hu0⟩, hnewBC v hu2⟩ ?_
            exact star_mono (fun a b hab => ⟨hab.1, hnewBC a hab.2.1, hnewBC b hab.2.2⟩) hst
        · have hDu : D.low u = A.low u := by rw [hDlow, if_neg hlt']
          rcases h.wit with hw | ⟨x, y, hx, hst, hxy, hyv, hyd, hpx⟩
          · refine Or.inl ?_
            show D.low u = C.disc u
            omega
          · refine Or.inr ⟨x, y, hnewC x hx, ?_, hxy, (kB y hyv).1, ?_, ?_⟩
            · exact star_mono (fun a b hab => ⟨hab.1, hnewC a hab.2.1, hnewC b hab.2.2⟩) hst
            · show C.disc y = D.low u
              rw [(kB y hyv).2.1, hyd, hDu]
            · show C.par x ≠ some y
              rw [(kB x hx.1).2.2.2]
              exact hpx
      · intro y hy
        rcases List.mem_append.1 hy with hy | hy
        · obtain ⟨h1, h2⟩ := h.seen y hy
          exact ⟨(kB y h1).1, hTC _ _ h2⟩
        · have hy : y = v := by simpa using hy
          subst hy
          exact ⟨hP.visu, Relation.ReflTransGen.single (Or.inr ⟨hP.visu, hCpv⟩)⟩
      · intro x hx
        have hx : C.vis x = false := hx
        have hxB : A.vis x = false := by
          cases hA : A.vis x with
          | false => rfl
          | true => rw [(kB x hA).1] at hx; cases hx
        have hxv : x ≠ v := fun e => by rw [e, hP.visu] at hx; cases hx
        show C.par x = _
        rw [hP.idle x hx]
        simp only [B, BAbs.setPar, putAt, hxv, if_false]
        exact h.idle x hxB
  | true =>
    have hseen : Star (TreeStep A) u v := by
      by_cases hg : v ∈ u :: gray
      · exact chain_tree u gray hI.gchain hI.gvis v hg
      · exact treeStar_symm (hI.black v hvis hg u (hsym _ _ hv)).2
    have hparv : ∀ p, A.par u = some p → p ∈ vs := fun p hp => (hI.visv p (hI.tree u p hvu hp).1).1
    have e1 : rd (A.conc vs).visited (vs.idxOf v) = .ok (A.vis v) := rd_name hvv
    have e2 : rd (A.conc vs).parent (vs.idxOf u) = .ok (parNum vs (A.par u)) := rd_name hu
    have e3 : rd (A.conc vs).disc (vs.idxOf v) = .ok (A.disc v) := rd_name hvv
    by_cases hp : A.par u = some v
    · refine ⟨A, ?_, ⟨h.inv, h.vmono, h.kept, h.fresh, h.paru, h.du, h.lowle, h.out, ?_, h.wit, ?_, h.idle⟩⟩
      · intro fuel _
        have : (vs.idxOf v : Int) = parNum vs (A.par u) := (parNum_eq hvv hparv).2 hp
        simp only [brNeighbor, e1, hvis, ok_bind, Bool.true_eq_false, if_false, e2, this, ne_eq, not_true, if_false]
      · intro y hy
        rcases List.mem_append.1 hy with hy | hy
        · exact h.outu y hy
        · have hy : y = v := by simpa using hy
          subst hy
          exact Or.inr (Or.inl (h.paru ▸ hp))
      · intro y hy
        rcases List.mem_append.1 hy with hy | hy
        · exact h.seen y hy
        · have hy : y = v := by simpa using hy
          subst hy
          exact ⟨hvis, hseen⟩
    · let D := A.lower u (A.disc v)
      have hDlow : D.low u = if A.disc v < A.low u then A.disc v else A.low u := by
        simp only [D, BAbs.lower, putAt, if_true]
      have hle1 : D.low u ≤ A.low u := by rw [hDlow]; split <;> omega
      have hle2 : D.low u ≤ A.disc v := by rw [hDlow]; split <;> omega
      refine ⟨D, ?_, ⟨hI.lower, h.vmono, ?_, h.fresh, h.paru, h.du, ?_, ?_, ?_, ?_, ?_, h.idle⟩⟩
      · intro fuel _
        have : (vs.idxOf v : Int) ≠ parNum vs (A.par u) := fun e => hp ((parNum_eq hvv hparv).1 e)
        simp only [brNeighbor, e1, hvis, ok_bind, Bool.true_eq_false, if_false, e2, this, ne_eq, not_false_eq_true, if_true, e3, brLower_conc hn hu]
        rfl
      · intro x hx
        obtain ⟨h1, h2, h3⟩ := h.kept x hx
        have hxu : x ≠ u := fun e => by rw [e, hu0] at hx; cases hx
        refine ⟨h1, ?_, h3⟩
        simp only [D, BAbs.lower, putAt, hxu, if_false]
        exact h2
      · have := h.lowle
        show D.low u ≤ A.disc u
        omega
      · intro x hx hxu y hy
        rcases h.out x hx hxu y hy with h1 | ⟨h1, h2⟩
        · exact Or.inl h1
        · exact Or.inr ⟨h1, Int.le_trans hle1 h2⟩
      · intro y hy
        rcases List.mem_append.1 hy with hy | hy
        · rcases h.outu y hy with h1 | h1 | ⟨h1, h2⟩
          · exact Or.inl h1
          · exact Or.inr (Or.inl h1)
          · exact Or.inr (Or.inr ⟨h1, Int.le_trans hle1 h2⟩)
        · have hy : y = v := by simpa using hy
          subst hy
          cases h0 : A0.vis y with
          | false => exact Or.inl ⟨hvis, h0⟩
          | true => exact Or.inr (Or.inr ⟨rfl, hle2⟩)
      · by_cases hlt' : A.disc v < A.low u
        · refine Or.inr ⟨u, v, ⟨hvu, hu0⟩, .refl, hv, hvis, ?_, hp⟩
          show A.disc v = D.low u
          rw [hDlow, if_pos hlt']
        · have hDu : D.low u = A.low u := by rw [hDlow, if_neg hlt']
          rcases h.wit with hw | ⟨x, y, hx, hst, hxy, hyv, hyd, hpx⟩
          · exact Or.inl (hDu.trans hw)
          · exact Or.inr ⟨x, y, hx, hst, hxy, hyv, hyd.trans hDu.symm, hpx⟩
      · intro y hy
        rcases List.mem_append.1 hy with hy | hy
        · exact h.seen y hy
        · have hy : y = v := by simpa using hy
          subst hy
          exact ⟨hvis, hseen⟩

/-- The numbers of the neighbours. -/
def numAdj (vs : List String) (nbr : String → List String) : List (List Nat) := vs.map fun v => (nbr v).map vs.idxOf

theorem brDfs_spec (hn : vs.Nodup) (hsym : ∀ x y, y ∈ nbr x → x ∈ nbr y) (hcl : ∀ v ∈ vs, ∀ w ∈ nbr v, w ∈ vs) :
    ∀ N, BrSpec vs nbr (numAdj vs nbr) N := by
  intro N
  induction N with
  | zero =>
    intro u A gray hu hu0 hN
    exfalso
    have : u ∈ vs.filter fun v => (if A.vis v = true then (0 : Int) else -1) = -1 := List.mem_filter.2 ⟨hu, by simp [hu0]⟩
    have := List.length_pos_of_mem this
    simp only [notVisited, unvisited] at hN
    omega
  | succ N ih =>
    intro u A gray hu hu0 hN hI hp hg
    have loop : ∀ (ns done : List String) (B : BAbs), (∀ w ∈ ns, w ∈ nbr u) → BrLoop vs nbr u gray A done B →
        ∃ B', (∀ fuel, N ≤ fuel → forList (ns.map vs.idxOf) (B.conc vs) (fun v st => brNeighbor (brDfs (numAdj vs nbr) fuel) (vs.idxOf u) v st) = .ok (B'.conc vs)) ∧
          BrLoop vs nbr u gray A (done ++ ns) B' := by
      intro ns
      induction ns with
      | nil => intro done B _ h; exact ⟨B, fun _ _ => rfl, by simpa using h⟩
      | cons v ns ihn =>
        intro done B hns h
        obtain ⟨B1, e1, h1⟩ := brNeighbor_spec hn hsym hcl ih hu hu0 hN h (hns v (by simp))
        obtain ⟨B', e2, h2⟩ := ihn (done ++ [v]) B1 (fun w hw => hns w (by simp [hw])) h1
        refine ⟨B', ?_, by simpa using h2⟩
        intro fuel hf
        rw [List.map_cons, forList, e1 fuel hf, ok_bind]
        exact e2 fuel hf
    obtain ⟨A', e, h⟩ := loop (nbr u) [] (A.enter u) (fun _ h => h) (BrLoop.start hu hu0 hI hp hg)
    obtain ⟨h1, h2⟩ := BrLoop.leave hu0 (by simpa using h)
    refine ⟨A', ?_, h1, h2⟩
    intro fuel hf
    obtain ⟨k, rfl⟩ : ∃ k, fuel = k + 1 := ⟨fuel - 1, by omega⟩
    have e3 : rd (numAdj vs nbr) (vs.idxOf u) = .ok ((nbr u).map vs.idxOf) := rd_name hu
    rw [brDfs, brEnter_conc hn hu, ok_bind, e3, ok_bind]
    exact e k (by omega)

theorem mapM_ok {α β : Type} {f : α → PyM β} {g : α → β} : ∀ (l : List α), (∀ x ∈ l, f x = .ok (g x)) → l.mapM f = .ok (l.map g) := by
  intro l
  induction l with
  | nil => intro _; rfl
  | cons a l ih =>
    intro h
    rw [List.mapM_cons, h a (by simp), ok_bind, ih (fun x hx => h x (by simp [hx])), ok_bind]
    rfl

theorem brAdjacency_eq {nb : String → PyM (List String)} (hcl : ∀ v ∈ vs, ∀ w ∈ nbr v, w ∈ vs) (hnb : ∀ v ∈ vs, nb v = .ok (nbr v)) :
    brAdjacency vs nb = .ok (numAdj vs nbr) := by
  rw [brAdjacency, mapM_ok (g := nbr) vs hnb, ok_bind, mapM_ok (g := fun l => l.map vs.idxOf)]
  · rw [List.map_map]; rfl
  · intro l hl
    obtain ⟨v, hv, rfl⟩ := List.mem_map.1 hl
    refine mapM_ok _ fun w hw => ?_
    rw [brIndex, if_pos (hcl v hv w hw)]

theorem pairLe_total (x y : String × String) (h : ¬ pairLe x y = true) : pairLe y x = true := by
  simp only [pairLe, Bool.or_eq_true, decide_eq_true_eq, Bool.and_eq_true, beq_iff_eq, not_or, not_and] at h ⊢
  rcases lt_trichotomy x.1 y.1 with h1 | h1 | h1
  · exact absurd h1 h.1
  · exact Or.inr ⟨h1.symm, (le_total y.2 x.2).resolve_right (h.2 h1)⟩
  · exact Or.inl h1

theorem pairLe_trans {x y z : String × String} (h : pairLe x y = true) (h' : pairLe y z = true) : pairLe x z = true := by
  simp only [pairLe, Bool.or_eq_true, decide_eq_true_eq, Bool.and_eq_true, beq_iff_eq] at h h' ⊢
  rcases h with h | ⟨h1, h2⟩ <;> rcases h' with h' | ⟨h3, h4⟩
  · exact Or.inl (lt_trans h h')
  · exact Or.inl (h3 ▸ h)
  · exact Or.inl (h1 ▸ h')
  · exact Or.inr ⟨h1.trans h3, le_trans h2 h4⟩

theorem pairInsert_perm (x : String × String) : ∀ l, (pairInsert x l).Perm (x :: l) := by
  intro l
  induction l with
  | nil => exact .refl _
  | cons y l ih =>
    rw [pairInsert]
    split
    · exact .refl _
    · exact (List.Perm.cons y ih).trans (.swap x y l)

theorem pairInsert_sorted (x : String × String) : ∀ l, l.Pairwise (fun a b => pairLe a b = true) → (pairInsert x l).Pairwise (fun a b => pairLe a b = true) := by
  intro l
  induction l with
  | nil => intro _; simp [pairInsert]
  | cons y l ih =>
    intro h
    obtain ⟨h1, h2⟩ := List.pairwise_cons.1 h
    rw [pairInsert]
    split
    · next hxy =>
      refine List.pairwise_cons.2 ⟨?_, h⟩
      intro z hz
      rcases List.mem_cons.1 hz with rfl | hz
      · exact hxy
      · exact pairLe_trans hxy (h1 z hz)
    · next hxy =>
      refine List.pairwise_cons.2 ⟨?_, ih h2⟩
      intro z hz
      rcases List.mem_cons.1 ((pairInsert_perm x l).mem_iff.1 hz) with rfl | hz
      · exact pairLe_total _ _ hxy
      · exact h1 z hz

theorem pairSort (l : List (String × String)) : (l.foldr pairInsert []).Perm l ∧ (l.foldr pairInsert []).Pairwise (fun a b => pairLe a b = true) := by
  induction l with
  | nil => exact ⟨.refl _, .nil⟩
  | cons a l ih => exact ⟨(pairInsert_perm a _).trans (ih.1.cons a), pairInsert_sorted a _ ih.2⟩

/-- The state after the loop of line 1376. -/
theorem brRoots_spec (hn : vs.Nodup) (hsym : ∀ x y, y ∈ nbr x → x ∈ nbr y) (hcl : ∀ v ∈ vs, ∀ w ∈ nbr v, w ∈ vs) :
    ∃ A : BAbs, (∀ fuel, vs.length ≤ fuel → forRange 0 vs.length (brInit vs.length) (fun i st => brRoot (numAdj vs nbr) fuel i st) = .ok (A.conc vs)) ∧
      BrInv vs nbr [] [] A ∧ ∀ v ∈ vs, A.vis v = true := by
  have h0 : BrInv vs nbr [] [] ⟨fun _ => false, fun _ => 0, fun _ => 0, fun _ => none, [], 0⟩ := by
    constructor <;> simp
  have r0 : brInit vs.length = BAbs.conc vs ⟨fun _ => false, fun _ => 0, fun _ => 0, fun _ => none, [], 0⟩ := by
    simp [brInit, BAbs.conc, parNum, List.map_const']
  have loop : ∀ (k i : Nat) (A : BAbs), i + k = vs.length → BrInv vs nbr [] [] A → (∀ x, A.vis x = false → A.par x = none) →
      (∀ j (h : j < vs.length), j < i → A.vis vs[j] = true) →
      ∃ A' : BAbs, (∀ fuel, vs.length ≤ fuel → loop (fun i st => brRoot (numAdj vs nbr) fuel i st) k i (A.conc vs) = .ok (A'.conc vs)) ∧
        BrInv vs nbr [] [] A' ∧ ∀ j (h : j < vs.length), A'.vis vs[j] = true := by
    intro k
    induction k with
    | zero => intro i A hi hI _ hv; exact ⟨A, fun _ _ => rfl, hI, fun j h => hv j h (by omega)⟩
    | succ k ih =>
      intro i A hi hI hid hv
      have hil : i < vs.length := by omega
      have hmem : vs[i] ∈ vs := List.getElem_mem hil
      have hidx : vs.idxOf vs[i] = i := List.Nodup.idxOf_getElem hn i hil
      have e1 : rd (A.conc vs).visited i = .ok (A.vis vs[i]) := by
        have := rd_name (f := A.vis) hmem
        rw [hidx] at this
        exact this
      have one : ∃ A1 : BAbs, (∀ fuel, vs.length ≤ fuel → brRoot (numAdj vs nbr) fuel i (A.conc vs) = .ok (A1.conc vs)) ∧ BrInv vs nbr [] [] A1 ∧
          (∀ x, A1.vis x = false → A1.par x = none) ∧ (∀ x, A.vis x = true → A1.vis x = true) ∧ A1.vis vs[i] = true := by
        cases hvi : A.vis vs[i] with
        | true =>
          refine ⟨A, ?_, hI, hid, fun _ h => h, hvi⟩
          intro fuel _
          simp only [brRoot, e1, hvi, ok_bind, Bool.true_eq_false, if_false]
        | false =>
          obtain ⟨A1, e, h1, h2⟩ := brDfs_spec hn hsym hcl vs.length vs[i] A [] hmem hvi (List.length_filter_le _ _) hI (hid _ hvi) (by simp)
          have hpn : A1.par vs[i] = none := h2.paru.trans (hid _ hvi)
          refine ⟨A1, ?_, ⟨h1.visv, h1.gvis, h1.gchain, h1.gsort, h1.black, h1.tree, ?_, ?_, h1.nodup⟩, ?_, h2.vmono, h2.visu⟩
          · intro fuel hf
            have e := e fuel hf
            rw [hidx] at e
            simp only [brRoot, e1, hvi, ok_bind, if_true, e]
          · intro x hx
            obtain ⟨a, _, b⟩ := h1.rep x hx
            exact ⟨a, by simp, b⟩
          · intro x p hx _ hp
            refine h1.all x p hx ?_ hp
            intro e
            have e : x = vs[i] := by simpa using e
            rw [e, hpn] at hp
            cases hp
          · intro x hx
            rw [h2.idle x hx]
            refine hid x ?_
            cases hA : A.vis x with
            | false => rfl
            | true => rw [h2.vmono x hA] at hx; cases hx
      obtain ⟨A1, e, hI1, hid1, hm, hv1⟩ := one
      obtain ⟨A', e', h1, h2⟩ := ih (i + 1) A1 (by omega) hI1 hid1 (by
        intro j hj hji
        by_cases h : j = i
        · subst h; exact hv1
        · exact hm _ (hv j hj (by omega)))
      refine ⟨A', ?_, h1, h2⟩
      intro fuel hf
      rw [Py.loop, e fuel hf, ok_bind]
      exact e' fuel hf
  obtain ⟨A, e, h1, h2⟩ := loop vs.length 0 _ (by omega) h0 (fun _ _ => rfl) (fun j _ h => by omega)
  refine ⟨A, ?_, h1, ?_⟩
  · intro fuel hf
    rw [forRange, r0, Nat.sub_zero]
    exact e fuel hf
  · intro v hv
    obtain ⟨j, hj, rfl⟩ := List.getElem_of_mem hv
    exact h2 j hj

/-- **C71.** In an undirected graph the call returns exactly the bridges, each as a pair in order, and the list is sorted without repetition. -/
theorem C71_bridges {nb : String → PyM (List String)} (hg : FinGraph vs nbr) (hnb : ∀ v ∈ vs, nb v = .ok (nbr v)) (hsym : ∀ x y, y ∈ nbr x → x ∈ nbr y) :
    ∃ bs, EndsWith (findBridges vs nb) (.ok bs) ∧ (∀ a b, (a, b) ∈ bs ↔ a ∈ vs ∧ a ≤ b ∧ IsBridge nbr a b) ∧ bs.Pairwise fun x y => x ≠ y ∧ pairLe x y = true := by
  obtain ⟨A, e, hI, hv⟩ := brRoots_spec hg.nodup hsym hg.closed
  let ord : String × String → String × String := fun e => if e.1 ≤ e.2 then e else (e.2, e.1)
  have hin : ∀ e ∈ A.br, e.1 ∈ vs ∧ e.2 ∈ vs ∧ e.2 ∈ nbr e.1 ∧ A.disc e.1 < A.disc e.2 ∧ A.par e.2 = some e.1 := by
    intro e he
    obtain ⟨h1, _, h3, _⟩ := hI.rep e he
    obtain ⟨h4, h5, h6⟩ := hI.tree e.2 e.1 h1 h3
    exact ⟨(hI.visv _ h4).1, (hI.visv _ h1).1, h5, h6, h3⟩
  have hname : (A.conc vs).found.mapM (brName vs) = .ok (A.br.map ord) := by
    simp only [BAbs.conc]
    rw [List.mapM_map]
    refine mapM_ok _ fun e he => ?_
    obtain ⟨h1, h2, _⟩ := hin e he
    have r1 : rd vs (vs.idxOf e.1) = .ok e.1 := by have := rd_name (f := id) h1; simpa using this
    have r2 : rd vs (vs.idxOf e.2) = .ok e.2 := by have := rd_name (f := id) h2; simpa using this
    simp only [Function.comp, brName, r1, r2, ok_bind, ord]
  have hord : ∀ e, ord e = e ∨ ord e = (e.2, e.1) := by
    intro e; simp only [ord]; split
    · exact Or.inl rfl
    · exact Or.inr rfl
  have hordle : ∀ e, (ord e).1 ≤ (ord e).2 := by
    intro e; simp only [ord]; split
    · assumption
    · next h => exact (le_total e.1 e.2).resolve_left h
  have hnd : (A.br.map ord).Nodup := by
    have hbr : A.br.Nodup := List.Nodup.of_map _ hI.nodup
    refine List.Nodup.map_on ?_ hbr
    intro x hx y hy hxy
    have hx' := hin x hx
    have hy' := hin y hy
    rcases hord x with h1 | h1 <;> rcases hord y with h2 | h2 <;> rw [h1, h2] at hxy
    · exact hxy
    · rw [hxy] at hx'
      have a := hx'.2.2.2.1
      have b := hy'.2.2.2.1
      simp only at a
      omega
    · rw [← hxy] at hy'
      have a := hx'.2.2.2.1
      have b := hy'.2.2.2.1
      simp only at b
      omega
    · simp only [Prod.mk.injEq] at hxy
      exact Prod.ext hxy.2 hxy.1
  obtain ⟨hperm, hsort⟩ := pairSort (A.br.map ord)
  refine ⟨(A.br.map ord).foldr pairInsert [], ⟨vs.length, ?_⟩, ?_, ?_⟩
  · intro n hn
    rw [findBridges, brAdjacency_eq hg.closed hnb, ok_bind, e n hn, ok_bind, hname, ok_bind]
  · intro a b
    rw [hperm.mem_iff, isBridge_iff]
    have hbridge : ∀ e ∈ A.br, IsBridge nbr e.1 e.2 ∧ IsBridge nbr e.2 e.1 := by
      intro e he
      obtain ⟨_, _, h3, _⟩ := hin e he
      have h4 := (hI.rep e he).2.2.2
      refine ⟨isBridge_iff.2 ⟨h3, h4⟩, isBridge_iff.2 ⟨hsym _ _ h3, fun h => h4 (Cut.swap (Cut.star_symm hsym h))⟩⟩
    constructor
    · intro h
      obtain ⟨e, he, heq⟩ := List.mem_map.1 h
      have hle := hordle e
      obtain ⟨h1, h2, _⟩ := hin e he
      obtain ⟨b1, b2⟩ := hbridge e he
      rw [heq] at hle
      rcases hord e with h | h <;> rw [h] at heq
      · subst heq; exact ⟨h1, hle, isBridge_iff.1 b1⟩
      · cases heq; exact ⟨h2, hle, isBridge_iff.1 b2⟩
    · rintro ⟨ha, hab, hnb', hns⟩
      have hva := hv a ha
      have hb := hg.closed a ha b hnb'
      have hvb := hv b hb
      by_cases h1 : A.par b = some a
      · rcases hI.all b a hvb (by simp) h1 with h | h
        · refine List.mem_map.2 ⟨_, h, ?_⟩
          simp only [ord, hab, if_true]
        · exact absurd h hns
      · by_cases h2 : A.par a = some b
        · rcases hI.all a b hva (by simp) h2 with h | h
          · refine List.mem_map.2 ⟨_, h, ?_⟩
            have hne : ¬ b ≤ a := by
              intro h'
              have := le_antisymm hab h'
              have := (hin _ h).2.2.2.1
              simp_all
            simp only [ord, hne, if_false]
          · exact absurd (Cut.swap (Cut.star_symm hsym h)) hns
        · exfalso
          apply hns
          have hT := (hI.black a hva (by simp) b hnb').2
          refine star_mono ?_ hT
          intro x y hxy
          rcases hxy with ⟨hx, hp⟩ | ⟨hy, hp⟩
          · refine ⟨hsym _ _ (hI.tree x y hx hp).2.1, fun e => ?_⟩
            rcases e with ⟨rfl, rfl⟩ | ⟨rfl, rfl⟩
            · exact h2 hp
            · exact h1 hp
          · refine ⟨(hI.tree y x hy hp).2.1, fun e => ?_⟩
            rcases e with ⟨rfl, rfl⟩ | ⟨rfl, rfl⟩
            · exact h1 hp
            · exact h2 hp
  · refine List.Pairwise.and ?_ hsort
    exact (hperm.nodup_iff.2 hnd)
end

/-- What the docstring example does: each edge of an undirected graph is added in one direction only. The answer is then wrong: no edge of a triangle
is a bridge. -/
def C71_one_way_full : Prop := ∀ vs nbr (nb : String → PyM (List String)), FinGraph vs nbr → (∀ v ∈ vs, nb v = .ok (nbr v)) →
  ∃ bs, EndsWith (findBridges vs nb) (.ok bs) ∧ ∀ a b, (a, b) ∈ bs → IsBridge (fun x => nbr x ++ vs.filter fun y => decide (x ∈ nbr y)) a b

def exOneWay (v : String) : List String := if v = "a" then ["b", "c"] else if v = "b" then ["c"] else []

theorem C71_one_way_false : ¬ C71_one_way_full := by
  intro h
  obtain ⟨bs, ⟨n, e⟩, hb⟩ := h ["a", "b", "c"] exOneWay (fun v => .ok (exOneWay v)) ⟨by decide, by decide, by decide⟩ (fun _ _ => rfl)
  have hmono : EndsWith (findBridges ["a", "b", "c"] (fun v => .ok (exOneWay v))) (.ok [("a", "b"), ("b", "c")]) := by
    refine ⟨4, fun m hm => ?_⟩
    obtain ⟨k, rfl⟩ : ∃ k, m = k + 4 := ⟨m - 4, by omega⟩
    rfl
  obtain ⟨n', e'⟩ := hmono
  have := (e (n + n') (by omega)).symm.trans (e' (n + n') (by omega))
  cases this
  have := hb "a" "b" (by simp)
  refine this.2 ?_
  have h1 : "c" ∈ without (fun x => exOneWay x ++ ["a", "b", "c"].filter fun y => decide (x ∈ exOneWay y)) "a" "b" "a" := by decide
  have h2 : "b" ∈ without (fun x => exOneWay x ++ ["a", "b", "c"].filter fun y => decide (x ∈ exOneWay y)) "a" "b" "c" := by decide
  exact ((Reach.refl _ _).snoc h1).snoc h2

/-! A triangle with a tail, all edges in both directions: the hypotheses are met. -/

def exTail (v : String) : List String :=
  if v = "a" then ["b", "c"] else if v = "b" then ["a", "c"] else if v = "c" then ["a", "b", "d"] else if v = "d" then ["c"] else []

example : FinGraph ["d", "a", "b", "c"] exTail := ⟨by decide, by decide, by decide⟩
example : ∀ x y, y ∈ exTail x → x ∈ exTail y := by
  intro x y h
  simp only [exTail] at h
  split at h
  · subst x; rcases List.mem_cons.1 h with rfl | h
    · decide
    · have : y = "c" := by simpa using h
      subst this; decide
  split at h
  · subst x; rcases List.mem_cons.1 h with rfl | h
    · decide
    · have : y = "c" := by simpa using h
      subst this; decide
  split at h
  · subst x; rcases List.mem_cons.1 h with rfl | h
    · decide
    · rcases List.mem_cons.1 h with rfl | h
      · decide
      · have : y = "d" := by simpa using h
        subst this; decide
  split at h
  · subst x
    have : y = "c" := by simpa using h
    subst this; decide
  · cases h
example : findBridges ["d", "a", "b", "c"] (fun v => .ok (exTail v)) 4 = .ok [("c", "d")] := by decide +kernel

end Props
