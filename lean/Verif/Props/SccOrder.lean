import Verif.Props.ComponentsAgree

/-! # C149: Tarjan's algorithm lists the components in reverse topological order -/
namespace Props
open Py Model Spec

/-- **C149**: if a vertex of one component can reach a vertex of another one, the component it can reach is listed first. -/
theorem C149_reverse_topological {vs : List String} {nbr : String → List String} {nb : String → PyM (List String)} (hg : FinGraph vs nbr)
    (hnb : ∀ v ∈ vs, nb v = .ok (nbr v)) :
    ∃ cs, EndsWith (fun fuel => tarjan vs nb fuel) (.ok cs) ∧ SccPartition vs nbr cs ∧
      ∀ (i j : Nat) (C D : List String), cs[i]? = some C → cs[j]? = some D → ∀ x ∈ C, ∀ y ∈ D, Reach nbr x y → j ≤ i := by
  obtain ⟨cs, e, hc, hp⟩ := tarjan_spec hg hnb
  refine ⟨cs, e, hc, ?_⟩
  intro i j C D hC hD x hx y hy hxy
  refine Nat.le_of_not_lt fun hij => ?_
  obtain ⟨hi, rfl⟩ := List.getElem?_eq_some_iff.1 hC
  obtain ⟨hj, rfl⟩ := List.getElem?_eq_some_iff.1 hD
  exact List.pairwise_iff_getElem.1 hp i j hi hj hij x hx y hy hxy

theorem pairwise_order {α : Type} {R : α → α → Prop} {u v : α} (hne : u ≠ v) (hR : ¬ R u v) : ∀ {L : List α}, L.Pairwise R → u ∈ L → v ∈ L →
    ∃ a b c, L = a ++ v :: b ++ u :: c
  | [], _, h, _ => by cases h
  | x :: L, hp, hu, hv => by
    obtain ⟨h1, h2⟩ := List.pairwise_cons.1 hp
    by_cases hxv : x = v
    · subst hxv
      rcases List.mem_cons.1 hu with h | h
      · exact absurd h hne
      · obtain ⟨s, t, rfl⟩ := List.append_of_mem h
        exact ⟨[], s, t, by simp⟩
    · have hv' : v ∈ L := by
        rcases List.mem_cons.1 hv with h | h
        · exact absurd h.symm hxv
        · exact h
      have hu : u ∈ L := by
        rcases List.mem_cons.1 hu with h | h
        · subst h; exact absurd (h1 v hv') hR
        · exact h
      obtain ⟨a, b, c, rfl⟩ := pairwise_order hne hR h2 hu hv'
      exact ⟨x :: a, b, c, by simp⟩

/-- **C149**: on a stored digraph without cycle the vertices in the order opposite to the one in which Tarjan's algorithm lists their components are in
topological order. -/
theorem C149_topological {g : AList} {d : Digraph} (h : AlRep g d) (ha : d.Acyclic) :
    ∃ cs, EndsWith (fun fuel => tarjan g.vertices (alNeighbors g) fuel) (.ok cs) ∧ TopoOrder d cs.flatten.reverse := by
  have hg : FinGraph d.verts d.nbrs := ⟨h.nodup, fun v _ w hw => (h.ends _ (mem_nbrs.1 hw)).2, fun v _ => nbrs_nodup h.enodup v⟩
  obtain ⟨cs, e, hc, hp⟩ := tarjan_spec hg (nb := alNeighbors g) (fun v hv => by rw [alNeighbors_of h, if_pos hv])
  refine ⟨cs, by rw [h.verts]; exact e, (List.reverse_perm _).trans hc.partition, fun u v huv => ?_⟩
  have hstep : Reach d.nbrs u v := ⟨1, .snoc .nil (mem_nbrs.2 huv)⟩
  have hnot : ∀ x, ∀ y, Reach d.nbrs x y → Reach d.nbrs y x → x = y := by
    rintro x y ⟨m, hm⟩ ⟨k, hk⟩
    cases m with
    | zero => cases hm; rfl
    | succ m => exact absurd (Walk.append hm hk) (ha x (m + 1 + k) (by omega))
  have hne : u ≠ v := fun e => ha u 1 (by omega) (by subst e; exact .snoc .nil (mem_nbrs.2 huv))
  have hflat : cs.flatten.Pairwise fun x y => ¬ Reach d.nbrs x y := by
    refine List.pairwise_flatten.2 ⟨fun C hC => ?_, hp⟩
    have hn : C.Nodup := by
      have h1 : cs.flatten.Nodup := hc.partition.nodup_iff.2 h.nodup
      exact (List.pairwise_flatten.1 h1).1 C hC
    refine hn.imp_of_mem fun {x y} hx hy hxy hr => ?_
    exact hxy (hnot x y hr ((hc.strong C hC x hx y).1 hy).2)
  have hmem : ∀ w, w ∈ d.verts → w ∈ cs.flatten := fun w hw => hc.partition.mem_iff.2 hw
  obtain ⟨a, b, c, e'⟩ := pairwise_order hne (fun hr => hr hstep) hflat (hmem u (h.ends _ huv).1) (hmem v (h.ends _ huv).2)
  exact ⟨c.reverse, b.reverse, a.reverse, by rw [e']; simp⟩

/-! ## Non-vacuity -/

example := C149_reverse_topological (vs := ["a", "b", "c", "d", "e", "f"]) (nbr := exScc) (nb := fun x => .ok (exScc x))
  ⟨by decide +kernel, by decide +kernel, by decide +kernel⟩ fun _ _ => rfl
example : tarjan ["a", "b", "c", "d", "e", "f"] (fun x => .ok (exScc x)) 10 = .ok [["f"], ["e", "d"], ["c", "b", "a"]] := by decide +kernel

theorem exDag_acyclic : (final digraphSpec Digraph.empty exDagOps).Acyclic := by
  refine topo_acyclic (L := ["a", "d", "b", "c"]) (by decide +kernel) ⟨by decide +kernel, ?_⟩
  intro u v h
  have h : (u, v) ∈ [("d", "b"), ("b", "c"), ("d", "c")] := h
  simp only [List.mem_cons, Prod.mk.injEq, List.not_mem_nil, or_false] at h
  rcases h with ⟨rfl, rfl⟩ | ⟨rfl, rfl⟩ | ⟨rfl, rfl⟩
  · exact ⟨["a"], [], ["c"], rfl⟩
  · exact ⟨["a", "d"], [], [], rfl⟩
  · exact ⟨["a"], ["b"], [], rfl⟩

example : AlRep (final (alStep exGAttr exNAttr) alNew exDagOps) (final digraphSpec Digraph.empty exDagOps) := by
  refine al_history_rep _ ?_ ?_
  · simp [exDagOps, GraphOp.All, Plain]; decide
  · simp [exDagOps]

end Props
