import Verif.Props.CppGraph
import Verif.Props.GraphSearch
import Verif.Model.CppBfs
import Verif.Lemmas.Bind

/-! # C102: breadth first search of the C++ back end -/
namespace Props
open Py Model Spec Model.Cpp
variable {V : Type} [DecidableEq V]

/-! ## Specification -/

/-- The calls `operation(node, next)` of an uninterrupted search: each reachable vertex other than the source is announced exactly once, in the order of
the distances, from a neighbour that is one step closer to the source. -/
structure BfsCalls (nbr : V → List V) (source : V) (calls : List (V × V)) : Prop where
  once : (calls.map Prod.snd).Nodup
  found : ∀ v, v ∈ calls.map Prod.snd ↔ Reach nbr source v ∧ v ≠ source
  level : ∀ c v, (c, v) ∈ calls → v ∈ nbr c ∧ ∃ n, IsDist nbr source c n ∧ IsDist nbr source v (n + 1)
  order : (calls.map Prod.snd).Pairwise fun v w => ∀ m n, IsDist nbr source v m → IsDist nbr source w n → m ≤ n

/-- The operation returned. -/
def returned (x : PyM Bool) : Bool := match x with | .ok _ => true | .error _ => false

/-- The calls that are made if the search ends with the first call that raises, and the exception. -/
def BfsOutcome (op : List (V × V) → PyM Bool) (full : List (V × V)) (r : BfsC V) : Prop :=
  r.calls = cut (fun l => returned (op l)) [] full ∧ ∀ e, r.exc = some e ↔ r.calls ≠ [] ∧ op r.calls = .error e

/-! ## Simulation by the Python function -/

def arcsOf (l : List (OpCall V)) : List (V × V) := l.filterMap fun c => c.2.map fun v => (c.1, v)

/-- The operation that leads the Python function to the same calls. -/
def pyOp (op : List (V × V) → PyM Bool) (l : List (OpCall V)) : Bool :=
  match l.getLast? with
  | some (_, some _) => returned (op (arcsOf l))
  | _ => true

theorem arcsOf_append (a b : List (OpCall V)) : arcsOf (a ++ b) = arcsOf a ++ arcsOf b := by simp [arcsOf]

theorem pyOp_some (op : List (V × V) → PyM Bool) (l : List (OpCall V)) (c v : V) :
    pyOp op (l ++ [(c, some v)]) = returned (op (arcsOf l ++ [(c, v)])) := by
  simp [pyOp, arcsOf_append]; rfl

theorem pyOp_none (op : List (V × V) → PyM Bool) (l : List (OpCall V)) (c : V) : pyOp op (l ++ [(c, none)]) = true := by
  simp [pyOp]

theorem arcsOf_cut (op : List (V × V) → PyM Bool) : ∀ (l base : List (OpCall V)),
    arcsOf (cut (pyOp op) base l) = cut (fun l => returned (op l)) (arcsOf base) (arcsOf l) := by
  intro l
  induction l with
  | nil => intro base; rfl
  | cons c l ih =>
    intro base
    obtain ⟨c, o⟩ := c
    cases o with
    | none =>
      simp only [cut, pyOp_none, if_true]
      rw [ih, arcsOf_append]
      simp [arcsOf]
    | some v =>
      simp only [cut, pyOp_some]
      have : arcsOf ((c, some v) :: l) = (c, v) :: arcsOf l := by simp [arcsOf]
      rw [this]
      simp only [cut]
      split
      · rw [ih, arcsOf_append]; rfl
      · rw [arcsOf_append]; rfl

structure BfsSim (op : List (V × V) → PyM Bool) (c : BfsC V) (s : Search V) : Prop where
  queue : c.exc = none → c.queue = s.frontier
  visited : c.exc = none → c.visited = s.visited
  calls : c.calls = arcsOf s.calls
  stop : c.exc.isSome = s.stop
  exc : ∀ e, c.exc = some e ↔ c.calls ≠ [] ∧ op c.calls = .error e

theorem bfsArcs_sim (op : List (V × V) → PyM Bool) (node : V) : ∀ (ns : List V) (c : BfsC V) (s : Search V), BfsSim op c s → c.exc = none →
    BfsSim op (bfsArcs op node ns c) (searchExpand (pyOp op) node ns s) := by
  intro ns
  induction ns with
  | nil => intro c s h _; exact h
  | cons n ns ih =>
    intro c s h hc
    have hv := h.visited hc
    have hs : s.stop = false := by rw [← h.stop, hc]; rfl
    simp only [bfsArcs, searchExpand, hv, pyOp_some, ← h.calls]
    by_cases hn : n ∈ s.visited
    · simp only [hn, if_true, not_true_eq_false, if_false]
      exact ih c s h hc
    · simp only [hn, if_false, not_false_eq_true, if_true]
      cases he : op (c.calls ++ [(node, n)]) with
      | error e =>
        simp only [returned, Bool.not_false, if_true]
        refine ⟨by simp, by simp, ?_, rfl, ?_⟩
        · simp [arcsOf_append, h.calls]; rfl
        · intro e'
          simp only [Option.some.injEq, he, Except.error.injEq]
          simp
      | ok b =>
        simp only [returned, Bool.not_true, Bool.false_eq_true, if_false]
        refine ih _ _ ⟨fun _ => by simp [h.queue hc], fun _ => by simp [hv], ?_, by simp [hc, hs], ?_⟩ hc
        · simp [arcsOf_append, h.calls]; rfl
        · intro e; simp [hc, he]

theorem bfsLoop_sim (op : List (V × V) → PyM Bool) {neighbors : V → PyM (List V)} : ∀ (fuel : Nat) (c : BfsC V) (s r : Search V), BfsSim op c s →
    bfsLoop (pyOp op) neighbors fuel s = .ok r → ∃ r', bfsLoopC op neighbors fuel c = .ok r' ∧ BfsSim op r' r := by
  intro fuel
  induction fuel with
  | zero => intro c s r _ e; cases e
  | succ fuel ih =>
    intro c s r h e
    simp only [bfsLoop] at e
    simp only [bfsLoopC, h.stop]
    split at e
    · rename_i hs
      cases e
      exact ⟨c, by simp [hs], h⟩
    · rename_i hs
      have hc : c.exc = none := by
        have := h.stop
        cases hx : c.exc with
        | none => rfl
        | some _ => rw [hx] at this; exact absurd this.symm hs
      simp only [hs, Bool.false_eq_true, if_false]
      rw [h.queue hc]
      split at e
      · cases e; rename_i hf; rw [hf]; exact ⟨c, rfl, h⟩
      · rename_i curr rest hf
        rw [hf]
        obtain ⟨s1, h1, e⟩ := Py.bind_ok e
        simp only [searchVisit] at h1
        obtain ⟨next, hn, h1⟩ := Py.bind_ok h1
        simp only [hn, ok_bind]
        refine ih _ s1 r ?_ e
        have h0 : BfsSim op { c with queue := rest } { s with frontier := rest, expanded := s.expanded ++ [curr] } :=
          ⟨fun _ => rfl, h.visited, h.calls, h.stop, h.exc⟩
        split at h1
        · cases h1
          exact bfsArcs_sim op curr next _ _ h0 hc
        · rename_i hl
          have : next = [] := by simpa using hl
          subst this
          rw [pyOp_none] at h1
          cases h1
          exact ⟨fun _ => rfl, h.visited, by simp only [bfsArcs]; rw [h.calls, arcsOf_append]; simp [arcsOf], h.stop, h.exc⟩

theorem arcsOf_spec {nbr : V → List V} {source : V} {full : Search V} (h : BfsSpec nbr source full) : BfsCalls nbr source (arcsOf full.calls) := by
  have e : (arcsOf full.calls).map Prod.snd = full.calls.filterMap fun c => c.2 := by
    unfold arcsOf
    rw [List.map_filterMap]
    congr 1
    funext c
    cases c.2 <;> rfl
  have hm : ∀ c v, (c, v) ∈ arcsOf full.calls → (c, some v) ∈ full.calls := by
    intro c v hm
    obtain ⟨⟨a, o⟩, h1, h2⟩ := List.mem_filterMap.1 hm
    cases o with
    | none => cases h2
    | some w => cases h2; exact h1
  refine ⟨by rw [e]; exact h.found_once, fun v => by rw [e]; exact h.found v, fun c v hc => ?_, by rw [e]; exact h.order⟩
  exact ⟨(h.edge c v (hm c v hc)).2, h.level c v (hm c v hc)⟩

theorem bfsC_spec {verts : List V} {nbr : V → List V} {neighbors : V → PyM (List V)} {source : V} (hg : FinGraph verts nbr)
    (hn : ∀ v ∈ verts, neighbors v = .ok (nbr v)) (hs : source ∈ verts) :
    ∃ full, BfsCalls nbr source full ∧ ∀ op : List (V × V) → PyM Bool, EndsIn (fun fuel => bfsC op neighbors source fuel) (BfsOutcome op full) := by
  obtain ⟨full, _, hf, hcut⟩ := C58_bfs hg hn hs
  refine ⟨arcsOf full.calls, arcsOf_spec hf, fun op => ?_⟩
  obtain ⟨n₀, hn₀⟩ := hcut (pyOp op)
  refine ⟨n₀, fun n hle => ?_⟩
  obtain ⟨r, e, hr⟩ := hn₀ n hle
  obtain ⟨r', e', hr'⟩ := bfsLoop_sim op n ⟨[source], [source], [], none⟩ _ r ⟨fun _ => rfl, fun _ => rfl, rfl, rfl, by simp⟩ e
  exact ⟨r', e', by rw [hr'.calls, hr, arcsOf_cut]; rfl, hr'.exc⟩

theorem Walk.congr {nbr nbr' : V → List V} (h : ∀ v w, w ∈ nbr v → w ∈ nbr' v) {u v : V} {n : Nat} (hw : Walk nbr u v n) : Walk nbr' u v n := by
  induction hw with
  | nil => exact .nil
  | snoc _ hm ih => exact .snoc ih (h _ _ hm)

/-- Only the set of the neighbours matters. -/
theorem BfsCalls.congr {nbr nbr' : V → List V} (h : ∀ v w, w ∈ nbr v ↔ w ∈ nbr' v) {source : V} {calls : List (V × V)} (hc : BfsCalls nbr source calls) :
    BfsCalls nbr' source calls := by
  have hw : ∀ u v n, Walk nbr u v n ↔ Walk nbr' u v n := fun u v n =>
    ⟨Walk.congr fun v w => (h v w).1, Walk.congr fun v w => (h v w).2⟩
  have hr : ∀ u v, Reach nbr u v ↔ Reach nbr' u v := fun u v => by simp only [Reach, hw]
  have hd : ∀ u v n, IsDist nbr u v n ↔ IsDist nbr' u v n := fun u v n => by simp only [IsDist, hw]
  refine ⟨hc.once, fun v => by rw [hc.found, hr], fun c v hm => ?_, ?_⟩
  · obtain ⟨h1, n, h2, h3⟩ := hc.level c v hm
    exact ⟨(h _ _).1 h1, n, (hd _ _ _).1 h2, (hd _ _ _).1 h3⟩
  · refine hc.order.imp ?_
    intro v w hvw m n hm hn
    exact hvw m n ((hd _ _ _).2 hm) ((hd _ _ _).2 hn)

/-! ## Adjacency lists -/

theorem cgAdjacent_of {g : CGraph} {d : Digraph} (h : CgRep g d) (order : String → List String → List String) {v : String} (hv : v ∈ d.verts) :
    cgAdjacent order g v = .ok (order v (d.nbrs v)) := by
  obtain ⟨id, e⟩ := (h.mem v).1 hv
  simp only [cgAdjacent, h.nodeMap, e, h.adj v id e]

/-- C102: after any history (of names without underscore), with any iteration order of the hash maps: the calls made are those of a breadth first search,
the whole of it if the operation does not raise, otherwise up to the first call that raises, and this exception is propagated. -/
theorem C102_list_partial (ops : List CGraphOp) (hp : ∀ c ∈ ops, c.1.All NoBar) {order : String → List String → List String}
    (ho : ∀ v l, (order v l).Perm l) (source : String) (hs : source ∈ (final cppGraphSpec Digraph.empty ops).verts) :
    ∃ full, BfsCalls (final cppGraphSpec Digraph.empty ops).nbrs source full ∧
      ∀ op, EndsIn (fun fuel => cgBfs op order (final cgStep cgNew ops) source fuel) (BfsOutcome op full) := by
  have h := (cgHistory CgRep.empty ops hp).2
  generalize final cppGraphSpec Digraph.empty ops = d at *
  generalize final cgStep cgNew ops = g at *
  obtain ⟨full, h1, h2⟩ := bfsC_spec (verts := d.verts) (nbr := fun v => order v (d.nbrs v)) (neighbors := cgAdjacent order g) (source := source)
    ⟨h.vnodup, fun v _ w hw => (h.ends (v, w) (mem_nbrs.1 ((ho _ _).mem_iff.1 hw))).2, fun v _ => (ho _ _).nodup_iff.2 (nbrs_nodup h.enodup v)⟩
    (fun v hv => cgAdjacent_of h order hv) hs
  refine ⟨full, h1.congr fun v w => (ho _ _).mem_iff, fun op => ?_⟩
  obtain ⟨id, e⟩ := (h.mem source).1 hs
  have e' : g.nodeMap source = some id := by rw [h.nodeMap, e]
  simpa only [cgBfs, e'] using h2 op

/-- A source that is not a vertex is undefined behaviour. -/
theorem C102_unknown_source (op : List (String × String) → PyM Bool) (order : String → List String → List String) (ops : List CGraphOp)
    (hp : ∀ c ∈ ops, c.1.All NoBar) (source : String) (hs : source ∉ (final cppGraphSpec Digraph.empty ops).verts) (fuel : Nat) :
    cgBfs op order (final cgStep cgNew ops) source fuel = .error .undefined := by
  have h := (cgHistory CgRep.empty ops hp).2
  simp only [cgBfs, h.nodeMap, h.absent hs]

/-- C102 as one would state it (and as C58 says of the Python back end): an answer of false ends the search. -/
def C102_full : Prop := ∀ (ops : List CGraphOp), (∀ c ∈ ops, c.1.All NoBar) → ∀ source, source ∈ (final cppGraphSpec Digraph.empty ops).verts →
    ∃ full, BfsCalls (final cppGraphSpec Digraph.empty ops).nbrs source full ∧
      ∀ op : List (String × String) → Bool, EndsIn (fun fuel => cgBfs (fun l => .ok (op l)) (fun _ l => l) (final cgStep cgNew ops) source fuel) fun r =>
        r.exc = none ∧ r.calls = cut op [] full

def exPath : List CGraphOp := [.addVertex "a", .addVertex "b", .addVertex "c", .addEdge "a" "b" none, .addEdge "b" "c" none].map inOrder

theorem exPath_plain : ∀ c ∈ exPath, c.1.All NoBar := by simp [exPath, inOrder, GraphOp.All, NoBar]

theorem C102_full_false : ¬ C102_full := by
  intro h
  obtain ⟨full, _, hf⟩ := h exPath exPath_plain "a" (by decide +kernel)
  have run : ∀ op : List (String × String) → Bool, ∀ fuel, ∃ r, cgBfs (fun l => .ok (op l)) (fun _ l => l) (final cgStep cgNew exPath) "a" (fuel + 4) = .ok r ∧
      r.calls = [("a", "b"), ("b", "c")] := fun op fuel => ⟨_, rfl, rfl⟩
  have res : ∀ op : List (String × String) → Bool, cut op [] full = [("a", "b"), ("b", "c")] := by
    intro op
    obtain ⟨n₀, hn⟩ := hf op
    obtain ⟨r, e, _, hr⟩ := hn (n₀ + 4) (by omega)
    obtain ⟨r', e', hr'⟩ := run op n₀
    dsimp only at e
    rw [e'] at e; cases e
    rw [← hr, hr']
  have h1 := res fun _ => true
  have h2 := res fun _ => false
  rw [cut_of_not_stops _ _ _ (cutStops_true _ _)] at h1
  simp only [List.nil_append] at h1
  rw [h1] at h2
  simp [cut] at h2

/-- Non-vacuity: a diamond with a cycle back; the operation raises at the third call. -/
def exDiamond : List CGraphOp := [.addVertex "s", .addVertex "l", .addVertex "r", .addVertex "t", .addEdge "s" "l" none, .addEdge "s" "r" none,
  .addEdge "l" "t" none, .addEdge "r" "t" none, .addEdge "t" "s" none].map inOrder

example : (∀ c ∈ exDiamond, c.1.All NoBar) ∧ "s" ∈ (final cppGraphSpec Digraph.empty exDiamond).verts ∧
    (cgBfs (fun _ => .ok false) (fun _ l => l) (final cgStep cgNew exDiamond) "s" 9).map (fun r => (r.calls, r.exc)) =
      .ok ([("s", "l"), ("s", "r"), ("l", "t")], none) ∧
    (cgBfs (fun l => if l.length < 2 then .ok true else .error .typeError) (fun _ l => l.reverse) (final cgStep cgNew exDiamond) "s" 9).map
      (fun r => (r.calls, r.exc)) = .ok ([("s", "r"), ("s", "l")], some .typeError) := by
  refine ⟨?_, by decide +kernel, by decide +kernel, by decide +kernel⟩
  simp [exDiamond, inOrder, GraphOp.All, NoBar]

end Props
