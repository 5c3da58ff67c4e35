import Verif.Lemmas.Avl
import Verif.Lemmas.Lists
import Verif.Props.Lca

/-!
# C77: AVL trees built by insertions
-/
namespace Props
open Py Model Spec
set_option linter.unusedSectionVars false
variable {κ δ : Type} [DecidableEq κ]

/-- A history of `AVLTree.insert(key, data)` calls. -/
def avlInserts (lt : κ → κ → Bool) (fuel : Nat) (t : BTree κ δ) (ops : List (κ × Option δ)) : PyM (BTree κ δ) :=
  ops.foldlM (fun t op => avlInsert lt fuel t op.1 op.2) t

/-- Keys and data stay where they are. -/
structure SameEntries (t t' : BTree κ δ) : Prop where
  rest : SameRest t t'
  key : ∀ i, (t'.at i).map BNode.key = (t.at i).map BNode.key
  data : ∀ i, (t'.at i).map BNode.data = (t.at i).map BNode.data

theorem Kept.entries {t t' : BTree κ δ} (h : Kept t t') : SameEntries t t' := by
  refine ⟨h.rest, fun i => ?_, fun i => ?_⟩ <;>
  · have := h.bare i
    cases e : t'.at i <;> cases e' : t.at i <;> simp_all [BNode.bare]

theorem SameEntries.keyOf {t t' : BTree κ δ} (h : SameEntries t t') (i : Nat) : keyOf t'.at i = keyOf t.at i := by
  have := h.key i
  unfold Props.keyOf
  cases e : t'.at i <;> cases e' : t.at i <;> simp_all

theorem SameEntries.isSome {t t' : BTree κ δ} (h : SameEntries t t') (i : Nat) : (t'.at i).isSome = (t.at i).isSome := by
  have := h.key i
  cases e : t'.at i <;> cases e' : t.at i <;> simp_all

theorem SameEntries.bstOk {lt : κ → κ → Bool} {t t' : BTree κ δ} {T T' : Shape} (h : SameEntries t t') (ok : BstOk lt t T) (ht : TreeAt true t' T')
    (e : T'.ids = T.ids) : BstOk lt t' T' := by
  have hr := h.rest
  refine ⟨ht, srt_of_ids e (srt_congr (fun i _ => h.keyOf i) ok.srt), ?_, ?_, ?_, ?_, ?_, ?_⟩
  · intro i hi; rw [h.isSome] at hi; rw [hr.top]; exact ok.low i hi
  · rw [hr.size, hr.top]; exact ok.size_top
  · rw [hr.num, hr.top]; exact ok.num_top
  · rw [hr.top, e]; exact ok.count
  · rw [hr.top, hr.len]; exact ok.cap
  · rw [hr.top, hr.len]; exact ok.dense

theorem SameEntries.carries {t t' : BTree κ δ} {T T' : Shape} {m : κ → Option (Option δ)} (h : SameEntries t t') (e : T'.ids = T.ids)
    (hc : Carries t T m) : Carries t' T' m := by
  intro k d
  rw [hc k d, e]
  have key : ∀ (a b : BTree κ δ), SameEntries a b → (∃ i ∈ T.ids, ∃ n, a.at i = some n ∧ n.key = some k ∧ n.data = d) →
      ∃ i ∈ T.ids, ∃ n, b.at i = some n ∧ n.key = some k ∧ n.data = d := by
    rintro a b hab ⟨i, hi, n, en, nk, nd⟩
    have h1 := hab.key i
    have h2 := hab.data i
    rw [en] at h1 h2
    cases e' : b.at i with
    | none => rw [e'] at h1; simp at h1
    | some n' =>
      rw [e'] at h1 h2
      simp only [Option.map_some, Option.some.injEq] at h1 h2
      exact ⟨i, hi, n', e', by rw [h1, nk], by rw [h2, nd]⟩
  exact ⟨key t t' h, key t' t ⟨⟨h.rest.num.symm, h.rest.top.symm, h.rest.size.symm, h.rest.orderStat.symm, h.rest.len.symm⟩, fun i => (h.key i).symm, fun i => (h.data i).symm⟩⟩

/-- Every used position belongs to the tree. -/
theorem BstOk.mem {lt : κ → κ → Bool} {t : BTree κ δ} {T : Shape} (h : BstOk lt t T) {i : Nat} (hi : i < t.top) : i ∈ T.ids := by
  by_cases hm : i ∈ T.ids
  · exact hm
  · exfalso
    have h1 := nodup_length_le (a := i :: T.ids) (b := List.range t.top) (List.nodup_cons.mpr ⟨hm, h.tree.nodup⟩) (by
      intro x hx
      simp only [List.mem_cons] at hx
      rcases hx with rfl | hx
      · simpa using hi
      · simpa using h.lt_top x hx)
    have := h.count
    simp at h1; omega

theorem annAround_of_plug {os : Bool} {h : Cells κ δ} : ∀ {c : Around} {T : Shape}, Ann os h (Around.plug c T) → AnnAround os h c ∧ Ann os h T := by
  intro c
  induction c with
  | nil => intro T H; exact ⟨trivial, H⟩
  | cons f c ih =>
    intro T H
    cases f with
    | inL i r =>
      obtain ⟨h1, ⟨_, h3, h4⟩, h5⟩ := ih (T := .node T i r) H
      exact ⟨⟨⟨h4, fun ho => (h5 ho).2.2⟩, h1⟩, h3, fun ho => (h5 ho).2.1⟩
    | inR l i =>
      obtain ⟨h1, ⟨_, h3, h4⟩, h5⟩ := ih (T := .node l i T) H
      exact ⟨⟨⟨h3, fun ho => (h5 ho).2.1⟩, h1⟩, h4, fun ho => (h5 ho).2.2⟩

theorem annAround_join {os : Bool} {h : Cells κ δ} : ∀ {c : Around}, AnnAround false h c → (os = true → SizedAround h c) → AnnAround os h c := by
  intro c
  induction c with
  | nil => intros; trivial
  | cons f c ih => intro h1 h2; exact ⟨⟨h1.1.1, fun ho => (h2 ho).1⟩, ih h1.2 (fun ho => (h2 ho).2)⟩

/-- The state after a history of AVL insertions. -/
inductive AvlState (lt : κ → κ → Bool) (os : Bool) (t : BTree κ δ) (m : κ → Option (Option δ)) : Prop where
  | empty (h : t = btEmpty os) (hm : ∀ k, m k = none)
  | tree (T : Shape) (ok : BstOk lt t T) (car : Carries t T m) (hos : t.orderStat = os) (ann : Ann os t.at T) (bal : Balanced T)

theorem avlInsert_eq {lt : κ → κ → Bool} {fuel : Nat} {t t1 t2 : BTree κ δ} {k : κ} {d : Option δ} {n : BNode κ δ} {w : Option Nat} {p : List (Option Nat)}
    (h1 : bstInsert lt fuel t k d = .ok t1) (hn : t1.at (t1.size - 1) = some n)
    (h2 : whileLoop fuel avlCond avlBody ⟨t1, n.parent, [some (t1.size - 1), n.parent]⟩ = .ok ⟨t2, w, p⟩) : avlInsert lt fuel t k d = .ok t2 := by
  simp only [avlInsert, h1, ok_bind, getNode_ok hn, avlBalance, h2]

theorem carries_first (os : Bool) (k : κ) (d : Option δ) {m : κ → Option (Option δ)} (hm : ∀ k, m k = none) :
    Carries (btFirst os k d) (.node .leaf 0 .leaf) (fun k' => if k' = k then some d else m k') := by
  intro k' d'
  dsimp only
  simp only [hm, Shape.ids, List.nil_append, List.mem_singleton, exists_eq_left, btFirst_at, if_true, Option.some.injEq, exists_eq_left']
  by_cases hk : k' = k
  · subst hk; simp
  · simp only [if_neg hk, reduceCtorEq, false_iff]
    rintro ⟨e, _⟩; exact hk e.symm

/-- An AVL tree of height `h` with `n` nodes: `h` is at most one and a half times the logarithm of `n + 1`. -/
theorem balanced_fib : ∀ (n : Nat) (T : Shape), T.depth = n → Balanced T → 8 ^ n ≤ 5 ^ n * (T.ids.length + 1) := by
  intro n
  induction n using Nat.strongRecOn with
  | _ n ih =>
    intro T hd hb
    match n, T, hd, hb with
    | 0, _, _, _ => simp
    | 1, .leaf, hd, _ => simp [Shape.depth] at hd
    | 1, .node l i r, _, _ => simp [Shape.ids]; omega
    | n + 2, .leaf, hd, _ => simp [Shape.depth] at hd
    | n + 2, .node l i r, hd, hb =>
      obtain ⟨h1, h2, hl, hr⟩ := hb
      simp only [Shape.depth] at hd
      have key : ∀ S S' : Shape, Balanced S → Balanced S' → S.depth = n + 1 → n ≤ S'.depth → S'.depth ≤ n + 1 →
          8 ^ (n + 2) ≤ 5 ^ (n + 2) * (S.ids.length + S'.ids.length + 2) := by
        intro S S' hS hS' e1 e2 e3
        have a := ih (n + 1) (by omega) S e1 hS
        have b : 8 ^ n ≤ 5 ^ n * (S'.ids.length + 1) := by
          rcases Nat.lt_or_ge n S'.depth with h | h
          · have := ih (n + 1) (by omega) S' (by omega) hS'
            rw [Nat.pow_succ, Nat.pow_succ] at this
            rw [show 5 ^ n * 5 * (S'.ids.length + 1) = 5 * (5 ^ n * (S'.ids.length + 1)) by rw [Nat.mul_comm (5 ^ n) 5, Nat.mul_assoc]] at this
            omega
          · exact ih n (by omega) S' (by omega) hS'
        rw [Nat.pow_succ, Nat.pow_succ] at a
        rw [show 8 ^ (n + 2) = 64 * 8 ^ n by rw [Nat.pow_add, Nat.mul_comm], show 5 ^ (n + 2) = 25 * 5 ^ n by rw [Nat.pow_add, Nat.mul_comm]]
        rw [show 25 * 5 ^ n * (S.ids.length + S'.ids.length + 2) = 5 * (5 ^ n * 5 * (S.ids.length + 1)) + 25 * (5 ^ n * (S'.ids.length + 1)) by
          generalize 5 ^ n = x
          generalize S.ids.length = y
          generalize S'.ids.length = z
          rw [show y + z + 2 = (y + 1) + (z + 1) by omega, Nat.mul_add, Nat.mul_comm x 5, Nat.mul_assoc, Nat.mul_assoc, Nat.mul_assoc]
          omega]
        omega
      have e : (Shape.node l i r).ids.length + 1 = l.ids.length + r.ids.length + 2 := by simp [Shape.ids]; omega
      rw [e]
      rcases Nat.lt_or_ge l.depth r.depth with h | h
      · have := key r l hr hl (by omega) (by omega) (by omega)
        rw [Nat.add_comm l.ids.length]; exact this
      · exact key l r hl hr (by omega) (by omega) (by omega)

theorem balanced_log {T : Shape} (h : Balanced T) : 4 ^ T.depth ≤ (T.ids.length + 1) ^ 3 := by
  have := balanced_fib _ T rfl h
  have h3 := Nat.pow_le_pow_left this 3
  rw [Nat.mul_pow, ← Nat.pow_mul, ← Nat.pow_mul, Nat.mul_comm T.depth 3, Nat.pow_mul, Nat.pow_mul] at h3
  have h4 : 125 ^ T.depth * 4 ^ T.depth ≤ 125 ^ T.depth * (T.ids.length + 1) ^ 3 := by
    rw [← Nat.mul_pow]
    exact Nat.le_trans (Nat.pow_le_pow_left (by omega) _) h3
  exact Nat.le_of_mul_le_mul_left h4 (Nat.pow_pos (by omega))

/-- `insert`, with the number of rounds its loops need. -/
theorem avlInsert_steps {lt : κ → κ → Bool} (ht : StrictTotal (ltRel lt)) {os : Bool} {t : BTree κ δ} {m : κ → Option (Option δ)}
    (h : AvlState lt os t m) (k : κ) (d : Option δ) :
    ∃ t1 t', AvlState lt os t' (fun k' => if k' = k then some d else m k') ∧
      ∃ n0, (∀ ks : List κ, (∀ k, (m k).isSome → k ∈ ks) → 4 ^ (n0 - 3) ≤ (ks.length + 1) ^ 3) ∧
        ∀ fuel, n0 ≤ fuel → bstInsert lt fuel t k d = .ok t1 ∧ avlInsert lt fuel t k d = .ok t' := by
  cases h with
  | empty h hm =>
    subst h
    refine ⟨btFirst os k d, btFirst os k d, .tree (.node .leaf 0 .leaf) (btFirst_ok lt os k d) (carries_first os k d hm) rfl ?_ ?_, 1,
      fun ks _ => Nat.pow_pos (by omega), fun fuel hf => ?_⟩
    · exact ⟨⟨⟨_, rfl, rfl⟩, trivial, trivial⟩, fun _ => ⟨⟨_, rfl, rfl⟩, trivial, trivial⟩⟩
    · exact ⟨by simp [Shape.depth], by simp [Shape.depth], trivial, trivial⟩
    · obtain ⟨f, rfl⟩ : ∃ f, fuel = f + 1 := ⟨fuel - 1, by omega⟩
      exact ⟨bstInsert_first os k d, avlInsert_eq (bstInsert_first os k d) (n := { key := some k, data := d, isRoot := true }) rfl (while_stop _ (by rfl))⟩
  | tree T ok car hos ann bal =>
    subst hos
    have hbound : ∀ n0 ≤ T.depth + 3, ∀ ks : List κ, (∀ k, (m k).isSome → k ∈ ks) → 4 ^ (n0 - 3) ≤ (ks.length + 1) ^ 3 := by
      intro n0 hn ks hks
      have h1 := keys_count ht ok.srt ok.tree.nodup car hks
      exact Nat.le_trans (Nat.pow_le_pow_right (by omega) (by omega)) (Nat.le_trans (balanced_log bal) (Nat.pow_le_pow_left (by omega) _))
    rcases bstInsert_steps ht ok k d with ⟨i, t', hi, hk, hr, hrun⟩ | ⟨f, c, t', rfl, habs, hI, hrun⟩
    · have ok' := hr.bstOk ok
      have hpos : 0 < t.top := by
        have := ok.lt_top i hi; omega
      have hx : t'.size - 1 < t'.top := by rw [ok'.size_top, hr.rest.top]; omega
      obtain ⟨c, l, r, eT⟩ := plug_of_mem T _ (ok'.mem hx)
      have ann' : Ann t'.orderStat t'.at T := by
        rw [hr.rest.orderStat]
        refine ann_congr (fun j _ => ?_) (fun j _ => ?_) ann <;>
        · simp only [hr.cells, mapAt]
          split
          · simp only [Option.map_map]; congr 1
          · rfl
      have ht' := ok'.tree
      rw [eT] at ht' ann'
      obtain ⟨n, en, _, _, np⟩ := ht'.node
      obtain ⟨aa, as⟩ := annAround_of_plug ann'
      obtain ⟨t2, h2, a2, k2, q, hloop⟩ := avl_settle c t' (.node l (t'.size - 1) r) (some (t'.size - 1)) n.parent ht' (by rw [← eT]; exact bal) as aa
      rw [← eT] at h2 a2
      refine ⟨t', t2, .tree T (k2.entries.bstOk ok' h2 rfl) (k2.entries.carries rfl (hr.carries ht ok hi hk car)) ?_ ?_ bal, T.depth + 2, hbound _ (by omega), fun fuel hf => ?_⟩
      · rw [k2.rest.orderStat, hr.rest.orderStat]
      · rw [← hr.rest.orderStat]; exact a2
      · have hcl := around_depth eT.symm
        exact ⟨hrun fuel (by omega), avlInsert_eq (hrun fuel (by omega)) en (by rw [np] at hloop ⊢; exact hloop fuel (by omega))⟩
    · obtain ⟨s, hs⟩ := hI.new
      have hsz : t'.size - 1 = t.top := by rw [hI.ok.size_top, hI.top]; omega
      have hh : ∀ i, i ≠ t.top → (t'.at i).map BNode.height = (t.at i).map BNode.height := by
        intro i hi
        have := hI.old i hi
        cases e : t'.at i <;> cases e' : t.at i <;> simp_all [BNode.core]
      have hlow : ∀ i ∈ Around.before (f :: c) ++ Around.after (f :: c), i ≠ t.top := by
        intro i hi
        refine Nat.ne_of_lt (ok.lt_top i ?_)
        rw [Around.ids_plug]; simpa [Shape.ids] using hi
      have a0 : AnnAround false t.at (f :: c) := (annAround_of_plug (os := false) (T := .leaf) ⟨ann.1, nofun⟩).1
      have ha : AnnAround t'.orderStat t'.at (f :: c) := by
        refine annAround_join ?_ ?_
        · have : ∀ (c : Around), AnnAround false t.at c → (∀ i ∈ Around.before c ++ Around.after c, i ≠ t.top) → AnnAround false t'.at c := by
            intro c
            induction c with
            | nil => intros; trivial
            | cons f c ih =>
              intro H hl
              refine ⟨⟨heighted_congr (fun i hi => hh i (hl i ?_)) H.1.1, nofun⟩, ih H.2 (fun i hi => hl i ?_)⟩
              · cases f <;> simp only [Frame.other] at hi <;> simp [Around.before, Around.after, hi]
              · simp only [List.mem_append] at hi
                cases f <;> rcases hi with hi | hi <;> simp [Around.before, Around.after, hi]
          exact this _ a0 hlow
        · intro ho
          rw [hI.orderStat] at ho
          exact (sizedAround_of_plug (hI.sized ho (ann.2 ho))).1
      have hS : Ann t'.orderStat t'.at (.node .leaf t.top .leaf) := by
        refine ⟨⟨⟨_, hs, rfl⟩, trivial, trivial⟩, fun ho => ?_⟩
        rw [hI.orderStat] at ho
        exact (sizedAround_of_plug (hI.sized ho (ann.2 ho))).2
      obtain ⟨T', t2, eids, b2, h2, a2, k2, q, hloop⟩ := avl_grow (f :: c) t' (.node .leaf t.top .leaf) .leaf (some f.idx) hI.ok.tree bal
        ⟨by simp [Shape.depth], by simp [Shape.depth], trivial, trivial⟩ (by simp [Shape.depth]) ⟨.leaf, t.top, .leaf, rfl, .inl ⟨rfl, rfl⟩⟩ hS ha
      refine ⟨t', t2, .tree T' (k2.entries.bstOk hI.ok h2 eids) (k2.entries.carries eids (hI.carries ok habs car)) ?_ ?_ b2,
        (Around.plug (f :: c) .leaf).depth + 3, hbound _ (by omega), fun fuel hf => ?_⟩
      · rw [k2.rest.orderStat, hI.orderStat]
      · rw [← hI.orderStat]; exact a2
      · have hcl := around_depth (c := f :: c) (S := .leaf) rfl
        exact ⟨hrun fuel (by omega), avlInsert_eq (hrun fuel (by omega)) (by rw [hsz]; exact hs) (by rw [hsz]; exact hloop fuel (by omega))⟩

theorem avlState_insert' {lt : κ → κ → Bool} (ht : StrictTotal (ltRel lt)) {os : Bool} {t : BTree κ δ} {m : κ → Option (Option δ)}
    (h : AvlState lt os t m) (k : κ) (d : Option δ) :
    ∃ t1 t', AvlState lt os t' (fun k' => if k' = k then some d else m k') ∧
      ∃ n0, ∀ fuel, n0 ≤ fuel → bstInsert lt fuel t k d = .ok t1 ∧ avlInsert lt fuel t k d = .ok t' := by
  obtain ⟨t1, t', h1, n0, _, h2⟩ := avlInsert_steps ht h k d
  exact ⟨t1, t', h1, n0, h2⟩

theorem avlState_insert {lt : κ → κ → Bool} (ht : StrictTotal (ltRel lt)) {os : Bool} {t : BTree κ δ} {m : κ → Option (Option δ)}
    (h : AvlState lt os t m) (k : κ) (d : Option δ) :
    ∃ t', AvlState lt os t' (fun k' => if k' = k then some d else m k') ∧ ∃ n0, ∀ fuel, n0 ≤ fuel → avlInsert lt fuel t k d = .ok t' := by
  obtain ⟨_, t', h1, n0, h2⟩ := avlState_insert' ht h k d
  exact ⟨t', h1, n0, fun fuel hf => (h2 fuel hf).2⟩

/-- Histories of single steps. -/
theorem history_lift {σ : Type} {Q : σ → (κ → Option (Option δ)) → Prop} {step : Nat → σ → κ → Option δ → PyM σ}
    (hs : ∀ s m, Q s m → ∀ k d, ∃ s', Q s' (fun k' => if k' = k then some d else m k') ∧ ∃ n0, ∀ fuel, n0 ≤ fuel → step fuel s k d = .ok s') :
    ∀ (ops : List (κ × Option δ)) (s : σ) (m : κ → Option (Option δ)), Q s m →
    ∃ s', Q s' (fun k => (lastData ops k).or (m k)) ∧ ∃ n0, ∀ fuel, n0 ≤ fuel → ops.foldlM (fun s op => step fuel s op.1 op.2) s = .ok s' := by
  intro ops
  induction ops with
  | nil => intro t m h; exact ⟨t, by simpa [lastData] using h, 0, fun _ _ => rfl⟩
  | cons op ops ih =>
    intro t m h
    obtain ⟨t1, h1, n1, r1⟩ := hs t m h op.1 op.2
    obtain ⟨t2, h2, n2, r2⟩ := ih t1 _ h1
    refine ⟨t2, ?_, max n1 n2, ?_⟩
    · have e : (fun k => (lastData (op :: ops) k).or (m k)) = fun k => (lastData ops k).or (if k = op.1 then some op.2 else m k) := by
        funext k
        simp only [lastData, Option.or_assoc]
        congr 1
        by_cases hk : op.1 = k
        · simp [hk]
        · rw [if_neg hk, if_neg (fun e => hk e.symm), Option.none_or]
      rw [e]; exact h2
    · intro fuel hf
      have := r1 fuel (by omega)
      have h2 := r2 fuel (by omega)
      rw [List.foldlM_cons, this]
      exact h2

theorem avl_history {lt : κ → κ → Bool} (ht : StrictTotal (ltRel lt)) (os : Bool) (ops : List (κ × Option δ)) :
    ∃ t, AvlState lt os t (lastData ops) ∧ EndsWith (fun n => avlInserts lt n (btEmpty os) ops) (.ok t) := by
  obtain ⟨t, h, n0, hr⟩ := history_lift (Q := AvlState (δ := δ) lt os) (step := avlInsert lt) (fun s m h k d => avlState_insert ht h k d) ops (btEmpty os)
    (fun _ => none) (.empty rfl (fun _ => rfl))
  exact ⟨t, by simpa using h, n0, hr⟩

/-- After a non-empty history the tree is not the empty one. -/
theorem ops_none {ops : List (κ × Option δ)} (hm : ∀ k, lastData ops k = none) : ops = [] := by
  cases ops with
  | nil => rfl
  | cons op ops =>
    have := (lastData_isSome (op :: ops) op.1).mpr (by simp)
    rw [hm] at this; simp at this

/-- After any history of insertions, `search` finds exactly the inserted keys, each with the data inserted last. -/
theorem C77_search {lt : κ → κ → Bool} (ht : StrictTotal (ltRel lt)) (os : Bool) (ops : List (κ × Option δ)) :
    ∃ t, EndsWith (fun n => avlInserts lt n (btEmpty os) ops) (.ok t) ∧
      ∀ k, ∃ r, EndsWith (fun n => bstSearch lt n t k) (.ok r) ∧ Answers t k (lastData ops k) r := by
  obtain ⟨t, hst, hrun⟩ := avl_history ht os ops
  refine ⟨t, hrun, fun k => ?_⟩
  cases hst with
  | empty h hm =>
    subst h
    exact ⟨none, ⟨0, fun n _ => rfl⟩, by rw [hm]; rfl⟩
  | tree T ok car _ _ _ => exact search_map ht ok.tree ok.srt car k

/-- An AVL tree of height `h` holds at least `2 ^ (h / 2) - 1` nodes. -/
theorem balanced_size : ∀ (n : Nat) (T : Shape), T.depth = n → Balanced T → 2 ^ (n / 2) ≤ T.ids.length + 1 := by
  intro n
  induction n using Nat.strongRecOn with
  | _ n ih =>
    intro T hd hb
    match n, T, hd, hb with
    | 0, _, _, _ => simp
    | 1, _, _, _ => simp
    | n + 2, .leaf, hd, _ => simp [Shape.depth] at hd
    | n + 2, .node l i r, hd, hb =>
      obtain ⟨h1, h2, hl, hr⟩ := hb
      simp only [Shape.depth] at hd
      have key : ∀ S : Shape, Balanced S → n ≤ S.depth → S.depth < n + 2 → 2 ^ (n / 2) ≤ S.ids.length + 1 := by
        intro S hS h1 h2
        have := ih S.depth h2 S rfl hS
        exact Nat.le_trans (Nat.pow_le_pow_right (by omega) (by omega)) this
      have k1 := key l hl (by omega) (by omega)
      have k2 := key r hr (by omega) (by omega)
      have e : (n + 2) / 2 = n / 2 + 1 := by omega
      rw [e, Nat.pow_succ]
      simp only [Shape.ids, List.length_append, List.length_cons]
      omega

/-- There are at most as many nodes as insertions. -/
theorem carries_count {lt : κ → κ → Bool} (ht : StrictTotal (ltRel lt)) {t : BTree κ δ} {T : Shape} {ops : List (κ × Option δ)} (hs : Srt lt t.at T)
    (hc : Carries t T (lastData ops)) : T.ids.length ≤ ops.length := by
  obtain ⟨ks, ⟨hp, hk⟩, hmap⟩ := treeKeys hs hc
  have hlen : ks.length = T.ids.length := by simpa using (congrArg List.length hmap).symm
  have hn : ks.Nodup := hp.imp (fun {a b} h => by rintro rfl; exact ht.irrefl _ h)
  have := nodup_length_le hn (b := ops.map (·.1)) (fun x hx => (lastData_isSome ops x).mp ((hk x).mp hx))
  rw [← hlen]; simpa using this

/-- After any non-empty history of insertions, the array holds a binary tree whose in-order traversal lists the inserted keys in strictly
increasing order, in which sibling subtrees differ in height by at most one, every node stores its height, and whose height is
logarithmic: `2 ^ (height / 2) ≤ number of insertions + 1`. -/
theorem C77_balanced {lt : κ → κ → Bool} (ht : StrictTotal (ltRel lt)) (os : Bool) (ops : List (κ × Option δ)) (hne : ops ≠ []) :
    ∃ t T, EndsWith (fun n => avlInserts lt n (btEmpty os) ops) (.ok t) ∧ HoldsTree t t.rootIdx T ∧
      (∃ ns, EndsWith (fun n => treeDfs n t .ino none) (.ok ns) ∧ NodesAt t T.ids ns ∧ ListsKeys lt (lastData ops) ns) ∧
      Balanced T ∧ Heighted t.at T ∧ 2 ^ (T.depth / 2) ≤ ops.length + 1 := by
  obtain ⟨t, hst, hrun⟩ := avl_history ht os ops
  cases hst with
  | empty h hm => exact absurd (ops_none hm) hne
  | tree T ok car _ ann bal =>
    have hH : HoldsTree t t.rootIdx T := ⟨ok.tree.root, ok.tree.linked.weaken, ok.tree.nodup⟩
    refine ⟨t, T, hrun, hH, ?_, bal, ann.1, ?_⟩
    · obtain ⟨ns, h1, h2⟩ := inorder_map ok.tree.root ok.tree.linked.weaken ok.tree.nodup ok.srt car
      obtain ⟨ns', h3, n0, h4⟩ := C74_in_order hH
      obtain ⟨n1, h5⟩ := h1
      have e : ns = ns' := by
        have a := h5 (max n0 n1) (by omega)
        have b := h4 (max n0 n1) (by omega)
        simp only [treeDfs, Option.getD_none, Option.getD_some] at a b
        rw [a] at b
        cases b; rfl
      exact ⟨ns, ⟨n1, h5⟩, by rw [e]; exact h3, h2⟩
    · exact Nat.le_trans (balanced_size _ T rfl bal) (by have := carries_count ht ok.srt car; omega)

/-- Bounds on AVL trees. -/
theorem C77_bounds {lt : κ → κ → Bool} (ht : StrictTotal (ltRel lt)) (os : Bool) (ops : List (κ × Option δ)) (hne : ops ≠ []) :
    ∃ t, EndsWith (fun n => avlInserts lt n (btEmpty os) ops) (.ok t) ∧ ∀ k,
      (∃ r, EndsWith (fun n => bstLower lt n t k) (.ok r) ∧ LeastOf lt (fun a => a ∈ ops.map (·.1) ∧ lt a k = false) r) ∧
      (∃ r, EndsWith (fun n => bstUpper lt n t k) (.ok r) ∧ LeastOf lt (fun a => a ∈ ops.map (·.1) ∧ lt k a = true) r) := by
  obtain ⟨t, hst, hrun⟩ := avl_history ht os ops
  refine ⟨t, hrun, fun k => ?_⟩
  cases hst with
  | empty h hm => exact absurd (ops_none hm) hne
  | tree T ok car _ _ _ =>
    obtain ⟨r1, e1, h1⟩ := bound_map ht ok.tree ok.srt car false k
    obtain ⟨r2, e2, h2⟩ := bound_map ht ok.tree ok.srt car true k
    refine ⟨⟨r1, e1, ?_⟩, ⟨r2, e2, ?_⟩⟩
    · simpa only [lastData_isSome, Beyond, Bool.false_eq_true, if_false] using h1
    · simpa only [lastData_isSome, Beyond, if_true] using h2

/-- `select` and `rank` on AVL trees with order statistics. -/
theorem C77_select_rank {lt : κ → κ → Bool} (ht : StrictTotal (ltRel lt)) (ops : List (κ × Option δ)) (hne : ops ≠ []) :
    ∃ t ks, EndsWith (fun n => avlInserts lt n (btEmpty true) ops) (.ok t) ∧ KeysInOrder lt (lastData ops) ks ∧
      (∀ (i : Nat), i < ks.length → ∃ n, EndsWith (fun f => bstSelect lt f t ((i : Int) + 1)) (.ok (some n)) ∧ n.key = ks[i]? ∧
        ∃ p : Nat, t.arr[p]? = some (some n)) ∧
      (∀ i : Int, i < 1 ∨ ks.length < i → ∀ f, bstSelect lt f t i = .error .valueError) ∧
      (∀ (i : Nat) k, ks[i]? = some k → EndsWith (fun f => bstRank lt f t k) (.ok (some (i + 1)))) ∧
      (∀ k, k ∉ ops.map (·.1) → EndsWith (fun f => bstRank lt f t k) (.ok none)) := by
  obtain ⟨t, hst, hrun⟩ := avl_history ht true ops
  cases hst with
  | empty h hm => exact absurd (ops_none hm) hne
  | tree T ok car _ ann _ =>
    obtain ⟨ks, h1, h2, h3, h4, h5⟩ := select_map ht ok.tree ok.srt (ann.2 rfl) (by rw [ok.num_top, ok.count]) car
    refine ⟨t, ks, hrun, h1, h2, h3, h4, fun k hk => h5 k ?_⟩
    cases e : lastData ops k with
    | none => rfl
    | some d => exact absurd ((lastData_isSome ops k).mp (by rw [e]; rfl)) hk

/-- Increasing insertions: the height stays logarithmic, and the root moves. -/
example : (avlInserts (fun a b : Nat => decide (a < b)) 30 (btEmpty true)
      [(1, some 'a'), (2, some 'b'), (3, none), (4, some 'c'), (5, none), (6, none), (7, some 'z'), (5, some 'q')]).bind (fun t => do
        let l ← treeDfs 40 t .pre none
        let r ← getNode t t.rootIdx
        .ok (t.rootIdx, r.height, r.size, l.map (·.key))) =
      .ok (3, 2, 7, [some 4, some 2, some 1, some 3, some 6, some 5, some 7]) := by decide +kernel
end Props
