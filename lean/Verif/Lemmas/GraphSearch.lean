import Verif.GraphSpec
import Verif.Model.GraphSearch

namespace Props
open Py Model Spec
variable {V : Type} [DecidableEq V]

/-- The calls that are really made when the calls `rest` are planned after the calls `base`: they end with the first one that is answered
false. -/
def cut {β : Type} (op : List β → Bool) (base : List β) : List β → List β
  | [] => base
  | c :: rest => if op (base ++ [c]) then cut op (base ++ [c]) rest else base ++ [c]

/-- Whether a call is answered false. -/
def cutStops {β : Type} (op : List β → Bool) (base : List β) : List β → Bool
  | [] => false
  | c :: rest => if op (base ++ [c]) then cutStops op (base ++ [c]) rest else true

theorem cut_append {β : Type} (op : List β → Bool) (a b base : List β) :
    cut op base (a ++ b) = if cutStops op base a then cut op base a else cut op (base ++ a) b := by
  induction a generalizing base with
  | nil => simp [cutStops]
  | cons c a ih =>
    simp only [List.cons_append, cut, cutStops]
    by_cases h : op (base ++ [c])
    · simp [h, ih]
    · simp [h]

theorem cut_of_not_stops {β : Type} (op : List β → Bool) (a base : List β) (h : cutStops op base a = false) : cut op base a = base ++ a := by
  have := cut_append op a [] base
  simpa [h, cut] using this

theorem cutStops_true {β : Type} (a base : List β) : cutStops (fun _ => true) base a = false := by
  induction a generalizing base with
  | nil => rfl
  | cons c a ih => simp [cutStops, ih]

theorem expand_cut (op : List (OpCall V) → Bool) (curr : V) : ∀ (ns : List V) (s : Search V), ns.Nodup → s.stop = false →
    let new := ns.filter fun n => decide (n ∉ s.visited)
    let planned := new.map fun n => (curr, some n)
    let r := searchExpand op curr ns s
    if cutStops op s.calls planned then r.stop = true ∧ r.calls = cut op s.calls planned
    else r = { s with frontier := s.frontier ++ new, visited := s.visited ++ new, calls := s.calls ++ planned } := by
  intro ns
  induction ns with
  | nil => intro s _ _; simp [searchExpand, cutStops]
  | cons n ns ih =>
    intro s hn hs
    obtain ⟨hnn, hn⟩ := List.nodup_cons.1 hn
    dsimp only
    by_cases hv : n ∈ s.visited
    · simp only [searchExpand, hv, not_true_eq_false, if_false, decide_false, Bool.false_eq_true, List.filter_cons_of_neg,
        not_false_eq_true]
      exact ih s hn hs
    · simp only [searchExpand, hv, not_false_eq_true, if_true, decide_true, List.filter_cons_of_pos, List.map_cons, cutStops, cut]
      by_cases ho : op (s.calls ++ [(curr, some n)]) = true
      · simp only [ho, if_true, Bool.not_true, Bool.false_eq_true, if_false]
        have := ih { s with calls := s.calls ++ [(curr, some n)], frontier := s.frontier ++ [n], visited := s.visited ++ [n] } hn hs
        dsimp only at this
        have hf : (ns.filter fun m => decide (m ∉ s.visited ++ [n])) = ns.filter fun m => decide (m ∉ s.visited) := by
          apply List.filter_congr
          intro m hm
          have : m ≠ n := fun e => hnn (e ▸ hm)
          simp [this]
        rw [hf] at this
        simpa using this
      · simp [ho]

/-- What one visit does. -/
theorem visit_cut (op : List (OpCall V) → Bool) {neighbors : V → PyM (List V)} {nbr : V → List V} {curr : V} (hn : neighbors curr = .ok (nbr curr))
    (hnd : (nbr curr).Nodup) (s : Search V) (hs : s.stop = false) :
    let new := (nbr curr).filter fun n => decide (n ∉ s.visited)
    let planned := if nbr curr = [] then [(curr, none)] else new.map fun n => (curr, some n)
    ∃ r, searchVisit op neighbors curr s = .ok r ∧
      if cutStops op s.calls planned then r.stop = true ∧ r.calls = cut op s.calls planned
      else r = { s with frontier := s.frontier ++ new, visited := s.visited ++ new, calls := s.calls ++ planned,
                        expanded := s.expanded ++ [curr] } := by
  dsimp only
  simp only [searchVisit, hn, bind, Except.bind]
  by_cases h0 : nbr curr = []
  · simp only [h0, List.length_nil, ne_eq, not_true_eq_false, if_false, if_true, cutStops, cut]
    by_cases ho : op (s.calls ++ [(curr, none)]) = true
    · exact ⟨_, by simp only [ho]; rfl, by simp [ho, List.filter]⟩
    · exact ⟨_, by simp only [ho]; rfl, by simp [ho]⟩
  · have : (nbr curr).length ≠ 0 := by simpa using h0
    simp only [this, ne_eq, not_false_eq_true, if_true, h0, if_false]
    refine ⟨_, rfl, ?_⟩
    have := expand_cut op curr (nbr curr) { s with expanded := s.expanded ++ [curr] } hnd hs
    exact this

theorem bfs_stop (op : List (OpCall V) → Bool) (neighbors : V → PyM (List V)) (fuel : Nat) (s : Search V) (hs : s.stop = true) :
    bfsLoop op neighbors (fuel + 1) s = .ok s := by simp [bfsLoop, hs]

theorem dfs_stop (op : List (OpCall V) → Bool) (neighbors : V → PyM (List V)) (fuel : Nat) (s : Search V) (hs : s.stop = true) :
    dfsLoop op neighbors (fuel + 1) s = .ok s := by simp [dfsLoop, hs]

theorem visit_true {neighbors : V → PyM (List V)} {nbr : V → List V} {curr : V} (hn : neighbors curr = .ok (nbr curr))
    (hnd : (nbr curr).Nodup) (s : Search V) (hs : s.stop = false) :
    let new := (nbr curr).filter fun n => decide (n ∉ s.visited)
    let planned := if nbr curr = [] then [(curr, none)] else new.map fun n => (curr, some n)
    searchVisit (fun _ => true) neighbors curr s =
      .ok { s with frontier := s.frontier ++ new, visited := s.visited ++ new, calls := s.calls ++ planned,
                   expanded := s.expanded ++ [curr] } := by
  obtain ⟨r, hr, h⟩ := visit_cut (fun _ => true) hn hnd s hs
  rw [cutStops_true] at h
  simp only [Bool.false_eq_true, if_false] at h
  rw [hr, h]

section
variable {verts : List V} {nbr : V → List V} {neighbors : V → PyM (List V)}

/-- Early stopping: a search with `op` makes the calls of the uninterrupted search up to the first that is answered false. -/
theorem bfsLoop_cut (hg : FinGraph verts nbr) (hn : ∀ v ∈ verts, neighbors v = .ok (nbr v)) (op : List (OpCall V) → Bool) :
    ∀ (fuel : Nat) (s r : Search V), s.stop = false → (∀ v ∈ s.frontier, v ∈ verts) → bfsLoop (fun _ => true) neighbors fuel s = .ok r →
    ∃ rest r', r.calls = s.calls ++ rest ∧ bfsLoop op neighbors fuel s = .ok r' ∧ r'.calls = cut op s.calls rest := by
  intro fuel
  induction fuel with
  | zero => intro s r _ _ h; simp [bfsLoop] at h
  | succ fuel ih =>
    rintro ⟨fr, vis, calls, ex, stop⟩ r hs hf h
    dsimp only at hs hf
    subst hs
    simp only [bfsLoop, Bool.false_eq_true, if_false] at h ⊢
    cases hfr : fr with
    | nil => rw [hfr] at h; simp at h; exact ⟨[], _, by simp [← h], rfl, rfl⟩
    | cons curr rest =>
      rw [hfr] at h hf
      have hc := hf curr (by simp)
      simp only at h ⊢
      rw [visit_true (hn curr hc) (hg.simple curr hc) _ rfl] at h
      obtain ⟨r1, hr1, hcut⟩ := visit_cut op (hn curr hc) (hg.simple curr hc) ⟨rest, vis, calls, ex, false⟩ rfl
      simp only [bind, Except.bind] at h ⊢
      rw [hr1]
      simp only at hcut ⊢
      obtain ⟨rest', r', e1, e2, e3⟩ := ih _ r rfl (by
        intro v hv
        simp only [List.mem_append, List.mem_filter] at hv
        rcases hv with hv | hv
        · exact hf v (by simp [hv])
        · exact hg.closed curr hc v hv.1) h
      have hfuel : ∃ k, fuel = k + 1 := by
        cases fuel with
        | zero => simp [bfsLoop] at h
        | succ k => exact ⟨k, rfl⟩
      by_cases hst : cutStops op calls (if nbr curr = [] then [(curr, none)] else
          ((nbr curr).filter fun n => decide (n ∉ vis)).map fun n => (curr, some n)) = true
      · rw [if_pos hst] at hcut
        obtain ⟨k, rfl⟩ := hfuel
        refine ⟨_, r1, by rw [e1, List.append_assoc], bfs_stop op neighbors k r1 hcut.1, ?_⟩
        rw [cut_append, if_pos hst]; exact hcut.2
      · rw [if_neg hst] at hcut
        subst hcut
        refine ⟨_, r', by rw [e1, List.append_assoc], e2, ?_⟩
        rw [cut_append, if_neg hst]; exact e3

theorem dfsLoop_cut (hg : FinGraph verts nbr) (hn : ∀ v ∈ verts, neighbors v = .ok (nbr v)) (op : List (OpCall V) → Bool) :
    ∀ (fuel : Nat) (s r : Search V), s.stop = false → (∀ v ∈ s.frontier, v ∈ verts) → dfsLoop (fun _ => true) neighbors fuel s = .ok r →
    ∃ rest r', r.calls = s.calls ++ rest ∧ dfsLoop op neighbors fuel s = .ok r' ∧ r'.calls = cut op s.calls rest := by
  intro fuel
  induction fuel with
  | zero => intro s r _ _ h; simp [dfsLoop] at h
  | succ fuel ih =>
    rintro ⟨fr, vis, calls, ex, stop⟩ r hs hf h
    dsimp only at hs hf
    subst hs
    simp only [dfsLoop, Bool.false_eq_true, if_false] at h ⊢
    cases hfr : fr.getLast? with
    | none => rw [hfr] at h; simp at h; exact ⟨[], _, by simp [← h], rfl, rfl⟩
    | some curr =>
      rw [hfr] at h
      have hc := hf curr (List.mem_of_getLast? hfr)
      simp only at h ⊢
      rw [visit_true (hn curr hc) (hg.simple curr hc) _ rfl] at h
      obtain ⟨r1, hr1, hcut⟩ := visit_cut op (hn curr hc) (hg.simple curr hc) ⟨fr.dropLast, vis, calls, ex, false⟩ rfl
      simp only [bind, Except.bind] at h ⊢
      rw [hr1]
      simp only at hcut ⊢
      obtain ⟨rest', r', e1, e2, e3⟩ := ih _ r rfl (by
        intro v hv
        simp only [List.mem_append, List.mem_filter] at hv
        rcases hv with hv | hv
        · exact hf v ((List.dropLast_sublist _).subset hv)
        · exact hg.closed curr hc v hv.1) h
      have hfuel : ∃ k, fuel = k + 1 := by
        cases fuel with
        | zero => simp [dfsLoop] at h
        | succ k => exact ⟨k, rfl⟩
      by_cases hst : cutStops op calls (if nbr curr = [] then [(curr, none)] else
          ((nbr curr).filter fun n => decide (n ∉ vis)).map fun n => (curr, some n)) = true
      · rw [if_pos hst] at hcut
        obtain ⟨k, rfl⟩ := hfuel
        refine ⟨_, r1, by rw [e1, List.append_assoc], dfs_stop op neighbors k r1 hcut.1, ?_⟩
        rw [cut_append, if_pos hst]; exact hcut.2
      · rw [if_neg hst] at hcut
        subst hcut
        refine ⟨_, r', by rw [e1, List.append_assoc], e2, ?_⟩
        rw [cut_append, if_neg hst]; exact e3

end
end Props
