import Verif.Props.NodeData

/-!
# C153: the neighbours of an adjacency-list node
-/
namespace Props
open Py Model Model.Cpp Spec

/-! ## Specification -/

/-- What a user does with the neighbours of an `AdjacencyListGraphNode`: `add_adjacent_node`, `remove_adjacent_node`,
`name in node.adjacent`, and reading the data of the neighbour. -/
inductive NbOp where
  | add (name : String) (data : PVal)
  | remove (name : String)
  | has (name : String)
  | data (name : String)

/-- The neighbours are a map from names to data: adding a neighbour that is there already changes its data, and removing one that is not
there raises `ValueError`. -/
def nbSpec (f : String → Option PVal) : NbOp → (String → Option PVal) × Out PVal
  | .add n v => (fun m => if m = n then some v else f m, .done)
  | .remove n => if (f n).isSome then (fun m => if m = n then none else f m, .done) else (f, .raised .valueError)
  | .has n => (f, .flag (f n).isSome)
  | .data n => (f, match f n with | some v => .elem v | none => .nothing)

/-- The neighbours that the constructor is given; of two with the same name the later counts. -/
def nbInit : List (String × PVal) → String → Option PVal
  | [], _ => none
  | (n, v) :: l, m => (nbInit l m).or (if m = n then some v else none)

/-! ## The code -/

def outRead : PyM PVal → Out PVal
  | .ok v => .elem v
  | .error _ => .nothing

def outCall {σ : Type} : Option PyErr × σ → σ × Out PVal
  | (none, s) => (s, .done)
  | (some e, s) => (s, .raised e)

/-- The Python node. -/
def pnodeStep (nAttr : String → Bool) (p : PNode) : NbOp → PNode × Out PVal
  | .add n v => outCall (pnodeAdd nAttr p n v)
  | .remove n => outCall (pnodeRemove nAttr p n)
  | .has n => (p, .flag (pnodeHas p n))
  | .data n => (p, outRead (pnodeData p n))

/-- The C++ node. -/
def cnodeStep (a : CAdj) : NbOp → CAdj × Out PVal
  | .add n v => outCall (cnodeAdd a n v)
  | .remove n => outCall (cnodeRemove a n)
  | .has n => (a, .flag (cnodeHas a n))
  | .data n => (a, outRead (cnodeData a n))

/-! ## The property -/

/-- The full property for Python. -/
def C153_full (nAttr : String → Bool) : Prop := ∀ (l : List (String × PVal)) (ops : List NbOp),
  trace (pnodeStep nAttr) (pnodeNew l) ops = trace nbSpec (nbInit l) ops

/-- The full property for C++, for data that nodes keep (C152). -/
def C153_cpp_full : Prop := ∀ (l : List (String × PVal)) (ops : List NbOp), (∀ n ∈ l, PlainData n.2) →
  (∀ n v, NbOp.add n v ∈ ops → PlainData v) →
  trace cnodeStep (cnodeNew (l.map fun n => (n.1, restsIn n.2))) ops = trace nbSpec (nbInit l) ops

/-! ### Python -/

/-- The node has the neighbours `f`. -/
structure PNodeIs (nAttr : String → Bool) (p : PNode) (f : String → Option PVal) : Prop where
  nodes : p.nodes = f
  adj : ∀ n, .name n ∈ p.adjacent ↔ (f n).isSome
  nodup : p.adjacent.Nodup
  free : ∀ n, (f n).isSome → nAttr n = false

theorem sset_eq {β : Type} (f : String → β) (n : String) (v : β) : sset f n v = fun m => if m = n then v else f m := rfl

theorem pnodeStep_spec {nAttr : String → Bool} {p : PNode} {f : String → Option PVal} (h : PNodeIs nAttr p f) (op : NbOp)
    (hop : ∀ n v, op = .add n v → nAttr n = false) :
    PNodeIs nAttr (pnodeStep nAttr p op).1 (nbSpec f op).1 ∧ (pnodeStep nAttr p op).2 = (nbSpec f op).2 := by
  obtain ⟨hn, ha, hd, hf⟩ := h
  obtain ⟨adj, nodes⟩ := p
  subst hn
  cases op with
  | add n v =>
    have hfree := hop n v rfl
    cases hp : nodes n with
    | some w =>
      have : pnodeAttr nAttr ⟨adj, nodes⟩ n = true := by simp [pnodeAttr, hp]
      simp only [pnodeStep, pnodeAdd, if_pos this, hp, outCall, nbSpec]
      refine ⟨⟨rfl, fun m => ?_, hd, fun m hm => ?_⟩, trivial⟩
      · by_cases hmn : m = n
        · subst hmn; simp only [if_pos]; exact ⟨fun _ => rfl, fun _ => (ha m).2 (by simp [hp])⟩
        · simp only [if_neg hmn]; exact ha m
      · by_cases hmn : m = n
        · subst hmn; exact hfree
        · simp only [if_neg hmn] at hm; exact hf m hm
    | none =>
      have : ¬ pnodeAttr nAttr ⟨adj, nodes⟩ n = true := by simp [pnodeAttr, hp, hfree]
      simp only [pnodeStep, pnodeAdd, if_neg this, outCall, nbSpec]
      have hnot : AdjItem.name n ∉ adj := fun hm => by have := (ha n).1 hm; simp [hp] at this
      refine ⟨⟨rfl, fun m => ?_, ?_, fun m hm => ?_⟩, trivial⟩
      · by_cases hmn : m = n
        · subst hmn; simp
        · simp only [if_neg hmn, List.mem_append, List.mem_singleton]
          constructor
          · rintro (hm | hm)
            · exact (ha m).1 hm
            · exact absurd (AdjItem.name.inj hm) hmn
          · exact fun hm => .inl ((ha m).2 hm)
      · rw [List.nodup_append]
        refine ⟨hd, by simp, ?_⟩
        intro x hx y hy
        rw [List.mem_singleton] at hy
        rintro rfl
        exact hnot (hy ▸ hx)
      · by_cases hmn : m = n
        · subst hmn; exact hfree
        · simp only [if_neg hmn] at hm; exact hf m hm
  | remove n =>
    cases hp : nodes n with
    | some w =>
      have h1 : ¬ (!pnodeAttr nAttr ⟨adj, nodes⟩ n) = true := by simp [pnodeAttr, hp]
      have h2 : AdjItem.name n ∈ adj := (ha n).2 (by simp [hp])
      simp only [pnodeStep, pnodeRemove, if_neg h1, if_pos h2, outCall, nbSpec, hp, Option.isSome_some, if_true]
      refine ⟨⟨rfl, fun m => ?_, hd.erase _, fun m hm => ?_⟩, trivial⟩
      · by_cases hmn : m = n
        · subst hmn
          simp only [if_pos]
          exact ⟨fun hm => absurd rfl ((List.Nodup.mem_erase_iff hd).1 hm).1, fun hm => (nomatch hm)⟩
        · simp only [if_neg hmn]
          rw [List.Nodup.mem_erase_iff hd]
          exact ⟨fun hm => (ha m).1 hm.2, fun hm => ⟨fun e => hmn (AdjItem.name.inj e), (ha m).2 hm⟩⟩
      · by_cases hmn : m = n
        · subst hmn; simp at hm
        · simp only [if_neg hmn] at hm; exact hf m hm
    | none =>
      have hnot : AdjItem.name n ∉ adj := fun hm => by have := (ha n).1 hm; simp [hp] at this
      have e : pnodeRemove nAttr ⟨adj, nodes⟩ n = (some .valueError, ⟨adj, nodes⟩) := by
        simp only [pnodeRemove, if_neg hnot, ite_self]
      have hs : ¬ (none : Option PVal).isSome = true := by simp
      simp only [pnodeStep, e, outCall, nbSpec, hp, if_neg hs]
      exact ⟨⟨rfl, ha, hd, hf⟩, trivial⟩
  | has n =>
    refine ⟨⟨rfl, ha, hd, hf⟩, ?_⟩
    simp only [pnodeStep, nbSpec, pnodeHas]
    refine congrArg Out.flag ?_
    rw [Bool.eq_iff_iff, decide_eq_true_iff]
    exact ha n
  | data n =>
    refine ⟨⟨rfl, ha, hd, hf⟩, ?_⟩
    simp only [pnodeStep, nbSpec, pnodeData]
    cases nodes n <;> rfl

theorem pnodeNew_is (nAttr : String → Bool) : PNodeIs nAttr (pnodeNew []) (nbInit []) :=
  ⟨rfl, fun n => ⟨fun h => (nomatch h), fun h => (nomatch h)⟩, List.nodup_nil, fun n h => (nomatch h)⟩

theorem pnodeTrace {nAttr : String → Bool} : ∀ (ops : List NbOp), (∀ n v, NbOp.add n v ∈ ops → nAttr n = false) →
    ∀ (p : PNode) (f : String → Option PVal), PNodeIs nAttr p f → trace (pnodeStep nAttr) p ops = trace nbSpec f ops := by
  intro ops
  induction ops with
  | nil => intro _ p f _; rfl
  | cons op ops ih =>
    intro ho p f h
    obtain ⟨h1, h2⟩ := pnodeStep_spec h op fun n v e => ho n v (e ▸ List.mem_cons_self ..)
    unfold trace
    rw [h2, ih (fun n v hm => ho n v (List.mem_cons_of_mem _ hm)) _ _ h1]

/-- **C153** (partial), Python. A node constructed without neighbours behaves, under any history, as the map from names to data, if no name
that is added is an attribute that nodes have anyway. Missing: those names, and nodes constructed with a list of neighbours. -/
theorem C153_neighbours_partial (nAttr : String → Bool) (ops : List NbOp) (h : ∀ n v, NbOp.add n v ∈ ops → nAttr n = false) :
    trace (pnodeStep nAttr) (pnodeNew []) ops = trace nbSpec (nbInit []) ops :=
  pnodeTrace ops h _ _ (pnodeNew_is nAttr)

/-- The same condition is necessary: `.name n ∈ adjacent` only for names that are no attributes, so the first attribute that is added raises. -/
theorem pnodeTrace_exact {nAttr : String → Bool} : ∀ (ops : List NbOp) (p : PNode) (f : String → Option PVal), PNodeIs nAttr p f →
    (trace (pnodeStep nAttr) p ops = trace nbSpec f ops) → ∀ n v, NbOp.add n v ∈ ops → nAttr n = false := by
  intro ops
  induction ops with
  | nil => intro p f _ _ n v hm; cases hm
  | cons op ops ih =>
    intro p f h he n v hm
    unfold trace at he
    obtain ⟨he1, he2⟩ := List.cons.inj he
    have hop : ∀ n v, op = .add n v → nAttr n = false := by
      intro n v e
      subst e
      cases hb : nAttr n with
      | false => rfl
      | true =>
        exfalso
        have hp : p.nodes n = none := by
          cases hq : p.nodes n with
          | none => rfl
          | some w =>
            have := h.free n (by rw [← h.nodes, hq]; rfl)
            rw [hb] at this; cases this
        have : pnodeAttr nAttr p n = true := by simp [pnodeAttr, hb]
        simp only [pnodeStep, pnodeAdd, if_pos this, hp, outCall, nbSpec] at he1
        cases he1
    rcases List.mem_cons.1 hm with e | hm
    · exact hop n v e.symm
    · exact ih _ _ (pnodeStep_spec h op hop).1 he2 n v hm

/-- **C153**, exactly, for Python nodes constructed without neighbours: a history goes as it should if and only if no name that is added is
an attribute that nodes have anyway (`"name"`, `"data"`, `"adjacent"`, `"methods"`, …). -/
theorem C153_neighbours_exact (nAttr : String → Bool) (ops : List NbOp) :
    trace (pnodeStep nAttr) (pnodeNew []) ops = trace nbSpec (nbInit []) ops ↔ ∀ n v, NbOp.add n v ∈ ops → nAttr n = false :=
  ⟨pnodeTrace_exact ops _ _ (pnodeNew_is nAttr), C153_neighbours_partial nAttr ops⟩

/-- **C153** fails in Python: a neighbour given to the constructor cannot be removed. -/
theorem C153_full_false (nAttr : String → Bool) : ¬ C153_full nAttr := by
  intro h
  have h := h [("B", .none)] [.remove "B"]
  have hs : trace nbSpec (nbInit [("B", .none)]) [.remove "B"] = [.done] := by decide +kernel
  have hp : trace (pnodeStep nAttr) (pnodeNew [("B", .none)]) [.remove "B"] = [.raised .valueError] := by
    have hn : ¬ AdjItem.name "B" ∈ (pnodeNew [("B", .none)]).adjacent := by decide +kernel
    simp only [trace, pnodeStep, pnodeRemove, if_neg hn, ite_self, outCall]
  rw [hs, hp] at h
  cases (List.cons.inj h).1

/-! ### C++ -/

/-- Every name that the history adds is a string without null characters that is no neighbour at that moment, and its data is plain. -/
def FreshAdds : (String → Option PVal) → List NbOp → Prop
  | _, [] => True
  | f, .add n v :: ops => (nullIn n = false ∧ PlainData v ∧ f n = none) ∧ FreshAdds (nbSpec f (.add n v)).1 ops
  | f, op :: ops => FreshAdds (nbSpec f op).1 ops

/-- The node has the neighbours `f`. -/
structure CNodeIs (a : CAdj) (f : String → Option PVal) : Prop where
  eq : ∀ n, a n = (f n).map fun v => .node (restsIn v)

theorem cnodeStep_spec {a : CAdj} {f : String → Option PVal} (h : CNodeIs a f) (op : NbOp)
    (hop : ∀ n v, op = .add n v → nullIn n = false ∧ PlainData v ∧ f n = none)
    (hn : ∀ n, (f n).isSome → nullIn n = false) :
    CNodeIs (cnodeStep a op).1 (nbSpec f op).1 ∧ (cnodeStep a op).2 = (nbSpec f op).2 := by
  cases op with
  | add n v =>
    obtain ⟨h1, h2, h3⟩ := hop n v rfl
    have hc : ¬ nullIn n = true := by rw [h1]; exact Bool.false_ne_true
    have ha : a n = none := by rw [h.eq, h3]; rfl
    have hv : cellNew .listNode v = .ok (restsIn v) := cellNew_plain h2 fun hk => nomatch hk
    simp only [cnodeStep, cnodeAdd, if_neg hc, ha, hv, outCall, nbSpec]
    refine ⟨⟨fun m => ?_⟩, trivial⟩
    by_cases hm : m = n
    · simp only [sset, if_pos hm]; rfl
    · simp only [sset, if_neg hm]; exact h.eq m
  | remove n =>
    cases hf : f n with
    | none =>
      have ha : a n = none := by rw [h.eq, hf]; rfl
      have e : cnodeRemove a n = (some .valueError, a) := by simp only [cnodeRemove, ha, ite_self]
      have hs : ¬ (none : Option PVal).isSome = true := by simp
      simp only [cnodeStep, e, outCall, nbSpec, hf, if_neg hs]
      exact ⟨h, trivial⟩
    | some v =>
      have hc : ¬ nullIn n = true := by rw [hn n (by rw [hf]; rfl)]; exact Bool.false_ne_true
      have ha : a n = some (.node (restsIn v)) := by rw [h.eq, hf]; rfl
      simp only [cnodeStep, cnodeRemove, if_neg hc, ha, outCall, nbSpec, hf, Option.isSome_some, if_true]
      refine ⟨⟨fun m => ?_⟩, trivial⟩
      by_cases hm : m = n
      · simp only [sset, if_pos hm]; rfl
      · simp only [sset, if_neg hm]; exact h.eq m
  | has n =>
    refine ⟨h, ?_⟩
    simp only [cnodeStep, nbSpec, cnodeHas, h.eq]
    cases f n <;> rfl
  | data n =>
    refine ⟨h, ?_⟩
    simp only [cnodeStep, nbSpec, cnodeData, h.eq]
    cases f n with
    | none => rfl
    | some v => simp only [Option.map_some, cellGet_rests]; rfl

theorem cnodeTrace : ∀ (ops : List NbOp) (a : CAdj) (f : String → Option PVal), CNodeIs a f → (∀ n, (f n).isSome → nullIn n = false) →
    FreshAdds f ops → trace cnodeStep a ops = trace nbSpec f ops := by
  intro ops
  induction ops with
  | nil => intro a f _ _ _; rfl
  | cons op ops ih =>
    intro a f h hn ho
    have hop : ∀ n v, op = .add n v → nullIn n = false ∧ PlainData v ∧ f n = none := by
      rintro n v rfl; exact ho.1
    obtain ⟨h1, h2⟩ := cnodeStep_spec h op hop hn
    have hrest : FreshAdds (nbSpec f op).1 ops := by cases op <;> first | exact ho.2 | exact ho
    have hn' : ∀ n, ((nbSpec f op).1 n).isSome → nullIn n = false := by
      intro m hm
      cases op with
      | add n v =>
        by_cases e : m = n
        · subst e; exact (hop m v rfl).1
        · simp only [nbSpec, if_neg e] at hm; exact hn m hm
      | remove n =>
        simp only [nbSpec] at hm
        split at hm
        · by_cases e : m = n
          · simp [e] at hm
          · simp only [if_neg e] at hm; exact hn m hm
        · exact hn m hm
      | has n => exact hn m hm
      | data n => exact hn m hm
    unfold trace
    rw [h2, ih _ _ h1 hn' hrest]

theorem cnodeNew_snoc (l : List (String × PVal)) (n : String) (v : PVal) (m : String) :
    nbInit (l ++ [(n, v)]) m = if m = n then some v else nbInit l m := by
  induction l with
  | nil => simp only [List.nil_append, nbInit, Option.none_or]
  | cons x l ih =>
    obtain ⟨a, b⟩ := x
    simp only [List.cons_append, nbInit, ih]
    by_cases e : m = n
    · simp only [if_pos e, Option.some_or]
    · simp only [if_neg e]

theorem foldl_nodes (l : List (String × PVal)) : ∀ (l0 : List (String × PVal)) (a : CAdj),
    (∀ m, a m = (nbInit l0 m).map fun v => .node (restsIn v)) → ∀ m,
    ((l.map fun n => (n.1, restsIn n.2)).foldl (fun a n => sset a n.1 (some (CEntry.node n.2))) a) m =
      (nbInit (l0 ++ l) m).map fun v => .node (restsIn v) := by
  induction l with
  | nil => intro l0 a h m; rw [List.append_nil]; exact h m
  | cons x l ih =>
    obtain ⟨n, v⟩ := x
    intro l0 a h m
    have e : l0 ++ (n, v) :: l = (l0 ++ [(n, v)]) ++ l := by simp
    rw [e]
    refine ih (l0 ++ [(n, v)]) _ (fun k => ?_) m
    rw [cnodeNew_snoc]
    by_cases e : k = n
    · simp only [sset, if_pos e]; rfl
    · simp only [sset, if_neg e]; exact h k

/-- **C153** (partial), C++. A node constructed with any list of neighbours behaves as the map from names to data, if the data is plain (C152),
no name has a null character, and no neighbour is added that is there already. Missing: those. -/
theorem C153_cpp_neighbours_partial (l : List (String × PVal)) (ops : List NbOp) (hl : ∀ n, (nbInit l n).isSome → nullIn n = false)
    (ho : FreshAdds (nbInit l) ops) :
    trace cnodeStep (cnodeNew (l.map fun n => (n.1, restsIn n.2))) ops = trace nbSpec (nbInit l) ops := by
  refine cnodeTrace ops _ _ ⟨fun m => ?_⟩ hl ho
  exact foldl_nodes l [] _ (fun _ => rfl) m

/-- **C153** in C++: adding a neighbour that is there already replaces the node by the bare data, and its data is lost. -/
theorem C153_cpp_second_add (a : CAdj) (n : String) (v w : PVal) (hn : nullIn n = false) (hv : PlainData v) (h : a n = none) :
    trace cnodeStep a [.add n v, .data n, .add n w, .has n, .data n] = [.done, .elem v, .done, .flag true, .nothing] := by
  have hc : ¬ nullIn n = true := by rw [hn]; exact Bool.false_ne_true
  have hv : cellNew .listNode v = .ok (restsIn v) := cellNew_plain hv fun hk => nomatch hk
  simp [trace, cnodeStep, cnodeAdd, hn, h, hv, outCall, cnodeData, cnodeHas, sset, cellGet_rests, outRead]

/-- **C153** fails in C++. -/
theorem C153_cpp_full_false : ¬ C153_cpp_full := by
  intro h
  have h := h [] [.add "B" .none, .add "B" (.int 3), .data "B"] (fun n hn => (nomatch hn)) (by
    intro n v hm
    simp only [List.mem_cons, NbOp.add.injEq, List.not_mem_nil, or_false] at hm
    rcases hm with ⟨_, rfl⟩ | ⟨_, rfl⟩ | hm
    · trivial
    · unfold PlainData; omega
    · cases hm)
  revert h
  decide +kernel

example : trace (pnodeStep fun n => n == "name") (pnodeNew []) [.add "B" (.int 1), .add "B" (.int 2), .data "B", .remove "B", .has "B", .remove "B"] =
    [.done, .done, .elem (.int 2), .done, .flag false, .raised .valueError] := by decide +kernel

example : FreshAdds (nbInit [("A", .int 1)]) [.add "B" (.int 2), .remove "B", .add "B" (.int 3)] := by
  refine ⟨⟨by decide +kernel, ?_, by decide +kernel⟩, ⟨by decide +kernel, ?_, by decide +kernel⟩, trivial⟩ <;>
    (unfold PlainData; omega)

end Props
