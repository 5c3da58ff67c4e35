import Verif.Props.Scc
import Verif.Props.Kosaraju

/-!
# C137: Tarjan and Kosaraju agree
-/
namespace Props
open Py Model Spec

/-- The same sets, up to the order of the sets and of their members. -/
def SameSets (cs ds : List (List String)) : Prop := (∀ C ∈ cs, ∃ D ∈ ds, ∀ x, x ∈ C ↔ x ∈ D) ∧ (∀ D ∈ ds, ∃ C ∈ cs, ∀ x, x ∈ C ↔ x ∈ D)

section
variable {vs : List String} {nbr : String → List String} {nb : String → PyM (List String)}

theorem scc_same_sets {cs ds : List (List String)} (h : SccPartition vs nbr cs) (h' : SccPartition vs nbr ds) : SameSets cs ds := by
  have key : ∀ {cs ds : List (List String)}, SccPartition vs nbr cs → SccPartition vs nbr ds → ∀ C ∈ cs, ∃ D ∈ ds, ∀ x, x ∈ C ↔ x ∈ D := by
    intro cs ds h h' C hC
    obtain ⟨x, hx⟩ := List.exists_mem_of_ne_nil C (h.nonempty C hC)
    obtain ⟨D, hD, hxD⟩ := List.mem_flatten.1 (h'.partition.mem_iff.2 (h.partition.mem_iff.1 (List.mem_flatten.2 ⟨C, hC, hx⟩)))
    refine ⟨D, hD, fun y => ?_⟩
    rw [h.strong C hC x hx y, h'.strong D hD x hxD y]
  refine ⟨key h h', fun D hD => ?_⟩
  obtain ⟨C, hC, e⟩ := key h' h D hD
  exact ⟨C, hC, fun x => (e x).symm⟩

/-- C137: on every digraph Tarjan returns; Kosaraju either raises `KeyError`, exactly if some vertex has no incoming edge, or returns a partition that is
coarser: two vertices that Tarjan puts together are together. -/
theorem C137_coarser_partial (hg : FinGraph vs nbr) (hnb : ∀ v ∈ vs, nb v = .ok (nbr v)) :
    ∃ cs, EndsWith (fun fuel => tarjan vs nb fuel) (.ok cs) ∧
      (((∃ v ∈ vs, ∀ u ∈ vs, v ∉ nbr u) ∧ EndsWith (fun fuel => kosaraju vs nb fuel) (.error .keyError)) ∨
       ((∀ v ∈ vs, ∃ u ∈ vs, v ∈ nbr u) ∧ ∃ ds, EndsWith (fun fuel => kosaraju vs nb fuel) (.ok ds) ∧ ds.flatten.Perm cs.flatten ∧
         ∀ C ∈ cs, ∃ D ∈ ds, ∀ x ∈ C, x ∈ D)) := by
  obtain ⟨cs, e, h⟩ := C69_tarjan hg hnb
  refine ⟨cs, e, ?_⟩
  obtain ⟨r, e', ⟨hno, rfl⟩ | ⟨hin, ds, rfl, hd⟩⟩ := C70_coarse_partial hg hnb
  · exact Or.inl ⟨hno, e'⟩
  · refine Or.inr ⟨hin, ds, e', hd.partition.trans h.partition.symm, fun C hC => ?_⟩
    obtain ⟨x, hx⟩ := List.exists_mem_of_ne_nil C (h.nonempty C hC)
    obtain ⟨D, hD, hxD⟩ := List.mem_flatten.1 (hd.partition.mem_iff.2 (h.partition.mem_iff.1 (List.mem_flatten.2 ⟨C, hC, hx⟩)))
    refine ⟨D, hD, fun y hy => ?_⟩
    have := (h.strong C hC x hx y).1 hy
    exact hd.union D hD x hxD y this.1 this.2

/-- C137 where every edge can be undone (as in undirected graphs) and every vertex has an incoming edge: the two return the same sets. -/
theorem C137_symmetric_partial (hg : FinGraph vs nbr) (hnb : ∀ v ∈ vs, nb v = .ok (nbr v)) (hin : ∀ v ∈ vs, ∃ u ∈ vs, v ∈ nbr u)
    (hsym : ∀ u ∈ vs, ∀ v ∈ nbr u, Reach nbr v u) :
    ∃ cs ds, EndsWith (fun fuel => tarjan vs nb fuel) (.ok cs) ∧ EndsWith (fun fuel => kosaraju vs nb fuel) (.ok ds) ∧ SameSets cs ds := by
  obtain ⟨cs, e, h⟩ := C69_tarjan hg hnb
  obtain ⟨ds, e', h'⟩ := C70_symmetric_partial hg hnb hin hsym
  exact ⟨cs, ds, e, e', scc_same_sets h h'⟩

/-- C137: the two return the same sets exactly if Kosaraju returns the strongly connected components. -/
theorem C137_exact (hg : FinGraph vs nbr) (hnb : ∀ v ∈ vs, nb v = .ok (nbr v)) :
    (∃ cs ds, EndsWith (fun fuel => tarjan vs nb fuel) (.ok cs) ∧ EndsWith (fun fuel => kosaraju vs nb fuel) (.ok ds) ∧ SameSets cs ds) ↔
    ∃ ds, EndsWith (fun fuel => kosaraju vs nb fuel) (.ok ds) ∧ SccPartition vs nbr ds := by
  obtain ⟨cs, ⟨n0, e⟩, h⟩ := C69_tarjan hg hnb
  constructor
  · rintro ⟨cs', ds, ⟨n1, e1⟩, e2, hsame⟩
    have hcs : cs = cs' := by
      have := (e (n0 + n1) (by omega)).symm.trans (e1 (n0 + n1) (by omega))
      cases this; rfl
    subst hcs
    refine ⟨ds, e2, ?_⟩
    obtain ⟨r, ⟨n3, e3⟩, ⟨_, rfl⟩ | ⟨_, ds', rfl, hd⟩⟩ := C70_coarse_partial hg hnb
    · obtain ⟨n2, e2⟩ := e2
      have := (e2 (n2 + n3) (by omega)).symm.trans (e3 (n2 + n3) (by omega))
      cases this
    · obtain ⟨n2, e2⟩ := e2
      have := (e2 (n2 + n3) (by omega)).symm.trans (e3 (n2 + n3) (by omega))
      cases this
      refine ⟨hd.partition, fun D hD => ?_, fun D hD x hx y => ?_⟩
      · obtain ⟨r, hr, _⟩ := hd.root D hD
        exact List.ne_nil_of_mem hr
      · obtain ⟨C, hC, hCD⟩ := hsame.2 D hD
        rw [← hCD y]
        exact h.strong C hC x ((hCD x).2 hx) y
  · rintro ⟨ds, e', h'⟩
    exact ⟨cs, ds, ⟨n0, e⟩, e', scc_same_sets h h'⟩
end

/-- The property in full. -/
def C137_full : Prop := ∀ (vs : List String) (nbr : String → List String) (nb : String → PyM (List String)), FinGraph vs nbr →
  (∀ v ∈ vs, nb v = .ok (nbr v)) → (∀ v ∈ vs, ∃ u ∈ vs, v ∈ nbr u) →
  ∃ cs ds, EndsWith (fun fuel => tarjan vs nb fuel) (.ok cs) ∧ EndsWith (fun fuel => kosaraju vs nb fuel) (.ok ds) ∧ SameSets cs ds

/-- Kosaraju puts `b` and `v` together (see `C70_full_incoming_false`), Tarjan does not. -/
theorem C137_full_false : ¬ C137_full := fun h => C70_full_incoming_false fun vs nbr nb hg hnb hin => (C137_exact hg hnb).1 (h vs nbr nb hg hnb hin)

example : FinGraph ["a", "b", "c", "d", "e"] exTwoParts ∧ (∀ v ∈ ["a", "b", "c", "d", "e"], ∃ u ∈ ["a", "b", "c", "d", "e"], v ∈ exTwoParts u) :=
  ⟨⟨by decide +kernel, by decide +kernel, by decide +kernel⟩, by decide +kernel⟩
example : tarjan ["a", "b", "c", "d", "e"] (fun x => .ok (exTwoParts x)) 20 = .ok [["c", "b", "a"], ["e", "d"]] := by decide +kernel
example : kosaraju ["a", "b", "c", "d", "e"] (fun x => .ok (exTwoParts x)) 30 = .ok [["d", "e"], ["a", "b", "c"]] := by decide +kernel
end Props
