import Verif.Model.Comparator
import Verif.Lemmas.Chain
import Verif.Props.Bst

/-!
# C87: trees with a user-supplied comparison
-/
namespace Props
open Py Model Spec
set_option linter.unusedSectionVars false
variable {κ δ : Type} [DecidableEq κ]

/-- The keys in the order in which they were first inserted. -/
def firstSeen : List κ → List κ
  | [] => []
  | k :: ks => k :: (firstSeen ks).filter (· ≠ k)

/-- A tree built with the comparison `comp` is a search tree for it: after every history of insertions the in-order
traversal lists the keys in the order of `comp`. -/
def C87_full : Prop :=
  ∀ (lt comp : Nat → Nat → Bool), StrictTotal (ltRel lt) → StrictTotal (ltRel comp) →
    ∀ (os : Bool) (ops : List (Nat × Option Nat)), ops ≠ [] →
      ∃ t, EndsWith (fun n => bstInserts (treeComparator lt (some comp)) n (btEmpty os) ops) (.ok t) ∧
        ∃ ns, EndsWith (fun n => treeDfs n t .ino none) (.ok ns) ∧ ListsKeys comp (lastData ops) ns

/-! ## The tree that is built -/

/-- The entries in the order in which their keys were first inserted, with the data inserted last. -/
def putEntry (E : List (κ × Option δ)) (k : κ) (d : Option δ) : List (κ × Option δ) :=
  if k ∈ E.map (·.1) then E.map (fun e => if e.1 = k then (k, d) else e) else E ++ [(k, d)]

/-- The array holds the entries one below the other. -/
structure ChainOk (t : BTree κ δ) (E : List (κ × Option δ)) : Prop where
  tree : TreeAt true t (leftChain (List.range E.length))
  cells : ∀ i e, E[i]? = some e → ∃ n, t.at i = some n ∧ n.key = some e.1 ∧ n.data = e.2
  low : ∀ i, (t.at i).isSome → i < t.top
  size_top : t.size = t.top
  num_top : t.num = t.top
  top : t.top = E.length
  cap : t.top ≤ t.arr.length
  dense : t.arr.length ≤ 4 * t.top
  root0 : t.rootIdx = 0
  nodup : (E.map (·.1)).Nodup

theorem ChainOk.key {t : BTree κ δ} {E : List (κ × Option δ)} (h : ChainOk t E) {i : Nat} {e : κ × Option δ} (he : E[i]? = some e) :
    keyOf t.at i = some e.1 := by
  obtain ⟨n, en, hk, _⟩ := h.cells i e he
  simp [keyOf, en, hk]

theorem ChainOk.keys {t : BTree κ δ} {E : List (κ × Option δ)} (h : ChainOk t E) : ∀ i ∈ List.range E.length, (keyOf t.at i).isSome := by
  intro i hi
  rw [List.mem_range] at hi
  rw [h.key (List.getElem?_eq_getElem hi)]; rfl

theorem ChainOk.ne {t : BTree κ δ} {E : List (κ × Option δ)} (h : ChainOk t E) : E ≠ [] := by
  rintro rfl
  have := h.tree.root
  cases this

theorem ChainOk.root_key {t : BTree κ δ} {E : List (κ × Option δ)} (h : ChainOk t E) : ∃ n a, t.at t.rootIdx = some n ∧ n.key = some a := by
  rw [h.root0]
  cases hE : E with
  | nil => exact absurd hE h.ne
  | cons e E' =>
    obtain ⟨n, en, hk, _⟩ := h.cells 0 e (by rw [hE]; rfl)
    exact ⟨n, _, en, hk⟩

/-- `search` walks down the chain to the node with the key. -/
theorem ChainOk.search {t : BTree κ δ} {E : List (κ × Option δ)} (h : ChainOk t E) (k : κ) :
    ∀ fuel > E.length + 1, bstSearch yes fuel t k = .ok ((List.range E.length).find? (fun i => decide (keyOf t.at i = some k))) := by
  obtain ⟨q, hq⟩ := chain_search (k := k) (List.range E.length) none h.tree.linked h.keys
  intro fuel hf
  obtain ⟨n, a, en, ea⟩ := h.root_key
  have := hq fuel (by simpa using hf)
  rw [h.tree.root] at this
  simp [bstSearch, bstSearchP, getNode_ok en, ea, this]

theorem ChainOk.find_some {t : BTree κ δ} {E : List (κ × Option δ)} (h : ChainOk t E) {k : κ} {i : Nat}
    (hi : (List.range E.length).find? (fun i => decide (keyOf t.at i = some k)) = some i) : ∃ d, E[i]? = some (k, d) := by
  have h1 := List.find?_some hi
  have h2 := List.mem_of_find?_eq_some hi
  rw [List.mem_range] at h2
  simp only [decide_eq_true_eq] at h1
  rw [h.key (List.getElem?_eq_getElem h2)] at h1
  refine ⟨E[i].2, ?_⟩
  rw [List.getElem?_eq_getElem h2, ← Option.some.inj h1]

theorem ChainOk.find_none {t : BTree κ δ} {E : List (κ × Option δ)} (h : ChainOk t E) {k : κ}
    (hi : (List.range E.length).find? (fun i => decide (keyOf t.at i = some k)) = none) : k ∉ E.map (·.1) := by
  intro hk
  obtain ⟨e, he, rfl⟩ := List.mem_map.mp hk
  obtain ⟨i, hl, rfl⟩ := List.getElem_of_mem he
  rw [List.find?_eq_none] at hi
  refine hi i (by simpa using hl) ?_
  simp [h.key (List.getElem?_eq_getElem hl)]

theorem ChainOk.grown_le {t : BTree κ δ} {E : List (κ × Option δ)} (h : ChainOk t E) : grown t ≤ 4 * (t.num + 1) := by
  have := h.num_top; have := h.cap; have := h.dense
  unfold grown
  split <;> omega

theorem getElem?_map_inj {E : List (κ × Option δ)} (hn : (E.map (·.1)).Nodup) {i j : Nat} {a b : κ × Option δ} (hi : E[i]? = some a)
    (hj : E[j]? = some b) (e : a.1 = b.1) : i = j := by
  have h1 : i < (E.map (·.1)).length := by
    rw [List.length_map]; exact (List.getElem?_eq_some_iff.mp hi).1
  refine (List.getElem?_inj h1 hn).mp ?_
  rw [List.getElem?_map, List.getElem?_map, hi, hj]
  simp [e]

theorem chain_step {t : BTree κ δ} {E : List (κ × Option δ)} (h : ChainOk t E) (k : κ) (d : Option δ) :
    ∃ t', ChainOk t' (putEntry E k d) ∧ ∀ fuel > E.length + 1, bstInsert yes fuel t k d = .ok t' := by
  cases hs : (List.range E.length).find? (fun i => decide (keyOf t.at i = some k)) with
  | some i =>
    obtain ⟨d0, hi⟩ := h.find_some hs
    have hmem : k ∈ E.map (·.1) := by
      have := List.mem_of_getElem? hi
      exact List.mem_map.mpr ⟨_, this, rfl⟩
    obtain ⟨n, en, hk, hd⟩ := h.cells i _ hi
    obtain ⟨t', e1, a1, r1, q1⟩ := modNode_spec (t := t) (i := i) (fun n => { n with data := d }) (by rw [en]; rfl)
    have hr : Replaced t t' i d := ⟨a1, r1, q1⟩
    refine ⟨t', ?_, fun fuel hf => by simp [bstInsert, h.search k fuel hf, hs, e1]⟩
    have hlen : (putEntry E k d).length = E.length := by simp [putEntry, hmem]
    have hkeys : (putEntry E k d).map (·.1) = E.map (·.1) := by
      simp only [putEntry, if_pos hmem, List.map_map]
      refine List.map_congr_left ?_
      intro e he
      simp only [Function.comp]
      split
      · next e => exact e.symm
      · rfl
    refine ⟨?_, ?_, ?_, ?_, ?_, ?_, ?_, ?_, ?_, ?_⟩
    · rw [hlen]
      exact ⟨by rw [q1]; exact h.tree.root, linked_congr (fun j _ => hr.sameLinks j) h.tree.linked, h.tree.nodup⟩
    · intro j e he
      simp only [putEntry, if_pos hmem, List.getElem?_map, Option.map_eq_some_iff] at he
      obtain ⟨e0, he0, rfl⟩ := he
      obtain ⟨m, em, hmk, hmd⟩ := h.cells j e0 he0
      rw [a1]
      by_cases hji : j = i
      · subst hji
        rw [hi] at he0; cases he0
        rw [en] at em; cases em
        exact ⟨{ n with data := d }, by simp [mapAt, en], by simp [hk], by simp⟩
      · refine ⟨m, by simp [mapAt, hji, em], ?_, ?_⟩
        · rw [hmk]; split
          · next e => rw [e]
          · rfl
        · rw [if_neg, hmd]
          intro e
          exact hji (getElem?_map_inj h.nodup he0 hi e)
    · intro j hj
      rw [r1.top]
      apply h.low
      rw [a1] at hj
      simp only [mapAt] at hj
      split at hj
      · simpa using hj
      · exact hj
    · rw [r1.size, r1.top]; exact h.size_top
    · rw [r1.num, r1.top]; exact h.num_top
    · rw [r1.top, hlen]; exact h.top
    · rw [r1.top, r1.len]; exact h.cap
    · rw [r1.top, r1.len]; exact h.dense
    · rw [q1]; exact h.root0
    · rw [hkeys]; exact h.nodup
  | none =>
    have hmem := h.find_none hs
    have hpos : 0 < E.length := List.length_pos_iff.mpr h.ne
    obtain ⟨m, hm⟩ : ∃ m, E.length = m + 1 := ⟨E.length - 1, by omega⟩
    have htr := h.tree
    have hkk := h.keys
    rw [hm, List.range_succ] at htr hkk
    obtain ⟨t1, hH, hrun⟩ := chain_insert (k := k) (d := d) h.cap h.grown_le h.size_top h.low (List.range m) m none htr.linked hkk
    have hplug : leftChain (List.range m ++ [m]) = Around.plug (.inL m .leaf :: chainUp (List.range m)) .leaf := by
      rw [← plug_chain]
      simp [chainUp]
    have hlowT : ∀ i ∈ (Around.plug (.inL m .leaf :: chainUp (List.range m)) Shape.leaf).ids, i < t.top := by
      rw [← hplug, ids_chain]
      intro i hi
      rw [h.top]
      simp at hi; omega
    have tr1 := hung_tree (hplug ▸ htr) hlowT hH
    have htop : t.top = m + 1 := by rw [h.top, hm]
    have hshape : Around.plug (.inL m .leaf :: chainUp (List.range m)) (.node .leaf t.top .leaf) = leftChain (List.range (m + 2)) := by
      rw [List.range_succ, List.range_succ, ← plug_chain, htop]
      simp [chainUp]
      rfl
    rw [hshape] at tr1
    have hcyc : leftChain (List.range (m + 2)) = Around.plug (.inL (m + 1) .leaf :: .inL m .leaf :: chainUp (List.range m)) .leaf := by
      rw [List.range_succ, List.range_succ, ← plug_chain]
      simp [chainUp]
    obtain ⟨t2, sb, rr, rq, run2⟩ := updateSize_any (hcyc ▸ tr1)
    have hm1 : m ≠ m + 1 := by omega
    have hnew : t1.at (m + 1) = some { key := some k, data := d, parent := some m } := by
      rw [hH.cells, htop]; simp [hung, mapAt, Frame.idx]
    have hcore : ∀ i, i ≠ m + 1 → (t1.at i).map BNode.core = (t.at i).map BNode.core := by
      intro i hi
      apply core_of_strip
      rw [hH.cells, htop]
      by_cases hif : i = m
      · subst hif
        simp only [hung, mapAt, Frame.idx, if_true, if_neg hm1, Option.map_map]; congr 1
      · simp [hung, mapAt, Frame.idx, hif, hi]
    have hput : putEntry E k d = E ++ [(k, d)] := by simp [putEntry, hmem]
    have hlen : (putEntry E k d).length = m + 2 := by rw [hput]; simp [hm]
    refine ⟨t2, ?_, ?_⟩
    · refine ⟨?_, ?_, ?_, ?_, ?_, ?_, ?_, ?_, ?_, ?_⟩
      · rw [hlen]
        exact ⟨by rw [rq]; exact tr1.root, linked_congr (fun i _ => sb.links i) tr1.linked, tr1.nodup⟩
      · intro i e he
        rw [hput] at he
        have hc2 : ∀ n1, t1.at i = some n1 → ∃ n2, t2.at i = some n2 ∧ n2.key = n1.key ∧ n2.data = n1.data := by
          intro n1 e1
          have := core_of_unsized (sb i)
          rw [e1] at this
          cases e2 : t2.at i with
          | none => rw [e2] at this; simp at this
          | some n2 =>
            rw [e2] at this
            simp only [Option.map_some, Option.some.injEq, BNode.core, BNode.mk.injEq] at this
            exact ⟨n2, rfl, this.1, this.2.1⟩
        by_cases hi : i = m + 1
        · subst hi
          rw [List.getElem?_append_right (by omega), hm] at he
          simp at he; subst he
          obtain ⟨n2, h1, h2, h3⟩ := hc2 _ hnew
          exact ⟨n2, h1, h2, h3⟩
        · have hil : i < E.length := by
            have := (List.getElem?_eq_some_iff.mp he).1
            simp [hm] at this; omega
          rw [List.getElem?_append_left hil] at he
          obtain ⟨n, en, hk, hd⟩ := h.cells i e he
          have := hcore i hi
          rw [en] at this
          cases e1 : t1.at i with
          | none => rw [e1] at this; simp at this
          | some n1 =>
            rw [e1] at this
            simp only [Option.map_some, Option.some.injEq, BNode.core, BNode.mk.injEq] at this
            obtain ⟨n2, h1, h2, h3⟩ := hc2 _ e1
            exact ⟨n2, h1, by rw [h2, this.1, hk], by rw [h3, this.2.1, hd]⟩
      · intro i hi
        rw [rr.top, hH.top]
        by_cases he : i = m + 1
        · omega
        · have h1 := core_of_unsized (sb i)
          have h2 := hcore i he
          have : (t.at i).isSome := by
            cases a1 : t.at i <;> cases a2 : t1.at i <;> cases a3 : t2.at i <;> simp_all
          have := h.low i this; omega
      · rw [rr.size, rr.top, hH.size, hH.top, h.size_top]
      · rw [rr.num, rr.top, hH.num, hH.top, h.num_top]
      · rw [rr.top, hH.top, hlen, htop]
      · have := h.cap
        rw [rr.top, rr.len, hH.top, hH.len]; unfold grown; split <;> omega
      · have := h.grown_le; have := h.num_top
        rw [rr.top, rr.len, hH.top, hH.len]; omega
      · rw [rq, hH.rootIdx]; exact h.root0
      · rw [hput, List.map_append, List.nodup_append]
        refine ⟨h.nodup, by simp, ?_⟩
        intro a ha b hb
        simp at hb; subst hb
        rintro rfl; exact hmem ha
    · intro fuel hf
      obtain ⟨n, a, en, ea⟩ := h.root_key
      have e2 := hrun fuel (by simp; omega)
      rw [htr.root] at e2
      have e3 : updateSize fuel t1 (some t.top) = .ok t2 := by
        rw [htop]; exact run2 fuel (by simp [chainUp]; omega)
      simp [bstInsert, h.search k fuel hf, hs, bstInsertNew, getNode_ok en, ea, e2, e3]

/-- The first insertion into an empty tree. -/
theorem chain_first (os : Bool) (k : κ) (d : Option δ) :
    ∃ t', ChainOk t' [(k, d)] ∧ ∀ fuel, bstInsert yes fuel (btEmpty os) k d = .ok t' := by
  refine ⟨⟨[some { key := some k, data := d, isRoot := true }], 1, 1, 0, 1, os⟩, ⟨⟨rfl, ?_, by simp [leftChain, Shape.ids]⟩, ?_, ?_, rfl, rfl, rfl, by simp, by simp, rfl, by simp⟩, ?_⟩
  · exact ⟨⟨_, rfl, rfl, rfl, fun _ => rfl⟩, trivial, trivial⟩
  · intro i e he
    cases i with
    | zero => simp at he; subst he; exact ⟨_, rfl, rfl, rfl⟩
    | succ i => simp at he
  · intro i hi
    cases i with
    | zero => exact Nat.one_pos
    | succ i => simp [BTree.at] at hi
  · intro fuel; rfl

/-- The entries after a history of insertions. -/
def entriesOf (E : List (κ × Option δ)) (ops : List (κ × Option δ)) : List (κ × Option δ) :=
  ops.foldl (fun E op => putEntry E op.1 op.2) E

theorem chain_run : ∀ (ops : List (κ × Option δ)) (t : BTree κ δ) (E : List (κ × Option δ)), ChainOk t E →
    ∃ t', ChainOk t' (entriesOf E ops) ∧ EndsWith (fun n => bstInserts yes n t ops) (.ok t') := by
  intro ops
  induction ops with
  | nil => intro t E h; exact ⟨t, h, 0, fun _ _ => rfl⟩
  | cons op ops ih =>
    intro t E h
    obtain ⟨t1, h1, r1⟩ := chain_step h op.1 op.2
    obtain ⟨t2, h2, n2, r2⟩ := ih t1 _ h1
    refine ⟨t2, h2, max (E.length + 2) n2, fun fuel hf => ?_⟩
    have a := r1 fuel (by omega)
    have b := r2 fuel (by omega)
    simp only [bstInserts, List.foldlM_cons] at b ⊢
    rw [a]; exact b

theorem chain_history (os : Bool) (op : κ × Option δ) (ops : List (κ × Option δ)) :
    ∃ t, ChainOk t (entriesOf [] (op :: ops)) ∧ EndsWith (fun n => bstInserts yes n (btEmpty os) (op :: ops)) (.ok t) := by
  obtain ⟨t1, h1, r1⟩ := chain_first os op.1 op.2
  obtain ⟨t2, h2, n2, r2⟩ := chain_run ops t1 _ h1
  refine ⟨t2, h2, n2, fun fuel hf => ?_⟩
  have b := r2 fuel hf
  simp only [bstInserts, List.foldlM_cons] at b ⊢
  rw [r1 fuel]; exact b

theorem putEntry_keys (E : List (κ × Option δ)) (k : κ) (d : Option δ) :
    (putEntry E k d).map (·.1) = if k ∈ E.map (·.1) then E.map (·.1) else E.map (·.1) ++ [k] := by
  unfold putEntry
  split
  · rw [List.map_map]
    refine List.map_congr_left ?_
    intro e he
    simp only [Function.comp]
    split
    · next e => exact e.symm
    · rfl
  · simp

theorem entriesOf_keys : ∀ (ops : List (κ × Option δ)) (E : List (κ × Option δ)),
    (entriesOf E ops).map (·.1) = E.map (·.1) ++ (firstSeen (ops.map (·.1))).filter (fun k => k ∉ E.map (·.1)) := by
  intro ops
  induction ops with
  | nil => intro E; simp [entriesOf, firstSeen]
  | cons op ops ih =>
    intro E
    have := ih (putEntry E op.1 op.2)
    simp only [entriesOf, List.foldl_cons] at this ⊢
    rw [this]
    simp only [putEntry_keys, List.map_cons, firstSeen]
    by_cases hm : op.1 ∈ E.map (·.1)
    · rw [if_pos hm, List.filter_cons_of_neg (by simpa using hm), List.filter_filter]
      congr 1
      refine List.filter_congr ?_
      intro k _
      by_cases hk : k = op.1
      · subst hk; simpa using hm
      · simp [hk]
    · rw [if_neg hm, List.filter_cons_of_pos (by simpa using hm), List.filter_filter, List.append_assoc]
      congr 1
      refine congrArg (List.cons op.1) (List.filter_congr ?_)
      intro k _
      by_cases hk : k = op.1 <;> simp [hk]

theorem putEntry_data (E : List (κ × Option δ)) (k : κ) (d : Option δ) (k' : κ) (d' : Option δ) :
    (k', d') ∈ putEntry E k d ↔ (k' = k ∧ d' = d) ∨ (k' ≠ k ∧ (k', d') ∈ E) := by
  unfold putEntry
  split
  · next hm =>
    simp only [List.mem_map]
    constructor
    · rintro ⟨e, he, h⟩
      split at h
      · cases h; exact .inl ⟨rfl, rfl⟩
      · subst h; next hne => exact .inr ⟨hne, he⟩
    · rintro (⟨rfl, rfl⟩ | ⟨h1, h2⟩)
      · obtain ⟨e, he, rfl⟩ := List.mem_map.mp hm
        exact ⟨e, he, by simp⟩
      · exact ⟨_, h2, by simp [h1]⟩
  · next hm =>
    simp only [List.mem_append, List.mem_singleton, Prod.mk.injEq]
    constructor
    · rintro (h | h)
      · exact .inr ⟨fun e => hm (List.mem_map.mpr ⟨_, h, e⟩), h⟩
      · exact .inl h
    · rintro (h | h)
      · exact .inr h
      · exact .inl h.2

theorem entriesOf_data : ∀ (ops : List (κ × Option δ)) (E : List (κ × Option δ)) (k : κ) (d : Option δ),
    (k, d) ∈ entriesOf E ops ↔ lastData ops k = some d ∨ (lastData ops k = none ∧ (k, d) ∈ E) := by
  intro ops
  induction ops with
  | nil => intro E k d; simp [entriesOf, lastData]
  | cons op ops ih =>
    intro E k d
    have := ih (putEntry E op.1 op.2) k d
    simp only [entriesOf, List.foldl_cons] at this ⊢
    rw [this, putEntry_data]
    simp only [lastData]
    cases h1 : lastData ops k with
    | some d1 => simp
    | none =>
      by_cases hk : op.1 = k
      · subst hk; simp [eq_comm]
      · have hk' : ¬ k = op.1 := fun e => hk e.symm
        simp [hk, hk']

/-! ## The claims -/

/-- With any comparison supplied by the user: every history of insertions ends normally, `search` finds exactly the
inserted keys, each with the data inserted last, and the in-order traversal lists the keys in the reverse of the order in
which they were first inserted. -/
theorem C87_any_comparator_partial (lt comp : κ → κ → Bool) (os : Bool) (ops : List (κ × Option δ)) (hne : ops ≠ []) :
    ∃ t, EndsWith (fun n => bstInserts (treeComparator lt (some comp)) n (btEmpty os) ops) (.ok t) ∧
      (∀ k, ∃ r, EndsWith (fun n => bstSearch (treeComparator lt (some comp)) n t k) (.ok r) ∧ Answers t k (lastData ops k) r) ∧
      ∃ ns, EndsWith (fun n => treeDfs n t .ino none) (.ok ns) ∧ ns.map (·.key) = (firstSeen (ops.map (·.1))).reverse.map some := by
  cases ops with
  | nil => exact absurd rfl hne
  | cons op ops =>
  obtain ⟨t, h, hrun⟩ := chain_history os op ops
  refine ⟨t, hrun, ?_, ?_⟩
  · intro k
    refine ⟨_, ⟨(entriesOf [] (op :: ops)).length + 2, fun n hn => h.search k n hn⟩, ?_⟩
    cases hs : (List.range (entriesOf [] (op :: ops)).length).find? (fun i => decide (keyOf t.at i = some k)) with
    | none =>
      have := h.find_none hs
      rw [entriesOf_keys] at this
      cases hl : lastData (op :: ops) k with
      | none => rfl
      | some d =>
        exact absurd (List.mem_map.mpr ⟨(k, d), (entriesOf_data _ [] k d).mpr (.inl hl), rfl⟩) (h.find_none hs)
    | some i =>
      obtain ⟨d, hd⟩ := h.find_some hs
      have hin := (entriesOf_data _ [] k d).mp (List.mem_of_getElem? hd)
      simp only [List.not_mem_nil, and_false, or_false] at hin
      rw [hin]
      obtain ⟨n, en, hk, hdd⟩ := h.cells i _ hd
      exact ⟨i, n, rfl, at_some.mp en, hk, hdd⟩
  · obtain ⟨ns, hns, n0, hr⟩ := C74_in_order (t := t) (i := t.rootIdx) ⟨h.tree.root, h.tree.linked.weaken, h.tree.nodup⟩
    refine ⟨ns, ⟨n0, fun n hn => by have := hr n hn; simpa [treeDfs] using this⟩, ?_⟩
    have hk : firstSeen ((op :: ops).map (·.1)) = (entriesOf [] (op :: ops)).map (·.1) := by
      rw [entriesOf_keys]; simp [List.filter_eq_self.mpr]
    rw [hk]
    have hmap : (List.range (entriesOf [] (op :: ops)).length).map (keyOf t.at) = (entriesOf [] (op :: ops)).map (fun e => some e.1) := by
      refine List.ext_getElem? ?_
      intro i
      simp only [List.getElem?_map]
      by_cases hi : i < (entriesOf [] (op :: ops)).length
      · rw [List.getElem?_range hi, List.getElem?_eq_getElem hi]
        simp [h.key (List.getElem?_eq_getElem hi)]
      · rw [List.getElem?_eq_none (by simpa using hi), List.getElem?_eq_none (by simpa using hi)]
        rfl
    unfold NodesAt at hns
    rw [ids_chain, List.map_reverse] at hns
    have h2 : ns.map (·.key) = (ns.map some).map (fun o : Option (BNode κ δ) => o.bind (·.key)) := by
      rw [List.map_map]; rfl
    rw [h2, ← hns, List.map_reverse, List.map_reverse, List.map_map, List.map_map]
    congr 1

/-- With any comparison supplied by the user, `lower_bound(k)` answers `k` when `k` is the key inserted first and `None`
otherwise, and `upper_bound` always answers `None`. -/
theorem C87_bounds (lt comp : κ → κ → Bool) (os : Bool) (k0 : κ) (d0 : Option δ) (ops : List (κ × Option δ)) :
    ∃ t, EndsWith (fun n => bstInserts (treeComparator lt (some comp)) n (btEmpty os) ((k0, d0) :: ops)) (.ok t) ∧
      ∀ k, EndsWith (fun n => bstLower (treeComparator lt (some comp)) n t k) (.ok (if k = k0 then some k else none)) ∧
        EndsWith (fun n => bstUpper (treeComparator lt (some comp)) n t k) (.ok none) := by
  obtain ⟨t, h, hrun⟩ := chain_history os (k0, d0) ops
  refine ⟨t, hrun, fun k => ?_⟩
  have hk := entriesOf_keys ((k0, d0) :: ops) ([] : List (κ × Option δ))
  have hn : ∃ n, t.at t.rootIdx = some n ∧ n.key = some k0 ∧ n.right = none := by
    cases hE : entriesOf [] ((k0, d0) :: ops) with
    | nil => exact absurd hE h.ne
    | cons e E =>
      rw [hE] at hk h
      simp [firstSeen] at hk
      obtain ⟨n, en, h1, _⟩ := h.cells 0 e rfl
      refine ⟨n, by rw [h.root0]; exact en, by rw [h1, hk.1], ?_⟩
      have hl := h.tree.linked
      rw [List.length_cons, List.range_succ_eq_map] at hl
      obtain ⟨⟨m, em, _, m2, _⟩, _⟩ := hl
      rw [en] at em; cases em
      exact m2
  obtain ⟨n, en, hnk, hnr⟩ := hn
  constructor
  · refine ⟨2, fun f hf => ?_⟩
    obtain ⟨f, rfl⟩ : ∃ g, f = g + 2 := ⟨f - 2, by omega⟩
    by_cases e : k = k0
    · subst e
      simp [bstLower, boundHelper, getNode_ok en, hnk]
    · have e' : ¬ k0 = k := fun h => e h.symm
      simp [bstLower, boundHelper, getNode_ok en, hnk, e, e', cmpKey, treeComparator, hnr]
  · refine ⟨2, fun f hf => ?_⟩
    obtain ⟨f, rfl⟩ : ∃ g, f = g + 2 := ⟨f - 2, by omega⟩
    by_cases e : k0 = k
    · subst e
      simp [bstUpper, boundHelper, getNode_ok en, hnk, hnr]
    · simp [bstUpper, boundHelper, getNode_ok en, hnk, e, cmpKey, treeComparator, hnr]

/-- Without a comparison from the user, the tree is ordered by `<`. -/
theorem C87_default {lt : κ → κ → Bool} (ht : StrictTotal (ltRel lt)) (os : Bool) (ops : List (κ × Option δ)) (hne : ops ≠ []) :
    ∃ t, EndsWith (fun n => bstInserts (treeComparator lt none) n (btEmpty os) ops) (.ok t) ∧
      ∃ ns, EndsWith (fun n => treeDfs n t .ino none) (.ok ns) ∧ ListsKeys lt (lastData ops) ns :=
  C72_in_order ht os ops hne

/-- A comparison supplied by the user is not used: with `>`, the keys 2, 3, 1 are listed as 1, 3, 2. -/
theorem C87_full_false : ¬ C87_full := by
  intro H
  obtain ⟨t, hrun, ns, hns, ks, hk, hp, _⟩ := H (fun a b => decide (a < b)) (fun a b => decide (b < a))
    ⟨fun a => by simp, fun a b c => by simp; omega, fun a b => by simp; omega⟩
    ⟨fun a => by simp, fun a b c => by simp; omega, fun a b => by simp; omega⟩ false [(2, none), (3, none), (1, none)] (by simp)
  obtain ⟨t', hrun', _, ns', hns', hk'⟩ := C87_any_comparator_partial (fun a b : Nat => decide (a < b)) (fun a b => decide (b < a)) false
    [(2, (none : Option Nat)), (3, none), (1, none)] (by simp)
  have ht : t = t' := by
    obtain ⟨a, ha⟩ := hrun
    obtain ⟨b, hb⟩ := hrun'
    have := (ha (a + b) (by omega)).symm.trans (hb (a + b) (by omega))
    exact Except.ok.inj this
  subst ht
  have hn : ns = ns' := by
    obtain ⟨a, ha⟩ := hns
    obtain ⟨b, hb⟩ := hns'
    have := (ha (a + b) (by omega)).symm.trans (hb (a + b) (by omega))
    exact Except.ok.inj this
  subst hn
  rw [hk] at hk'
  have : (firstSeen ([(2, (none : Option Nat)), (3, none), (1, none)].map (·.1))).reverse = [1, 3, 2] := by decide
  rw [this] at hk'
  have hks : ks = [1, 3, 2] := by
    have := congrArg (List.filterMap id) hk'
    simpa using this
  subst hks
  simp at hp

/-- A concrete history with a repeated key. -/
example : (bstInserts (treeComparator (fun a b : Nat => decide (a < b)) (some fun a b => decide (b < a))) 20 (btEmpty true)
      [(5, some 'a'), (2, some 'b'), (8, none), (2, some 'c')]).bind (fun t => do
        let i ← bstSearch (treeComparator (fun a b : Nat => decide (a < b)) (some fun a b => decide (b < a))) 20 t 2
        let l ← treeDfs 20 t .ino none
        .ok (i, l.map (·.key))) = .ok (some 1, [some 8, some 2, some 5]) := by decide +kernel

end Props
