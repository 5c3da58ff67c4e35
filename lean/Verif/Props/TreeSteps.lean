import Verif.Props.RedBlack
import Verif.Props.RedBlackDelete
import Verif.Props.AvlDelete

/-! # C126: balanced search trees work in logarithmic time

The loops of the model count their rounds: a loop that is allowed fewer rounds than it needs ends in `outOfFuel`. `EndsBy b f r` says that `b` rounds for each
loop are enough for the result `r`. -/
namespace Props
open Py Model Spec
set_option linter.unusedSectionVars false
variable {κ δ : Type} [DecidableEq κ]

/-- One and a half times the logarithm of `n + 1`, plus three. -/
def avlRounds (n : Nat) : Nat := Nat.log2 ((n + 1) ^ 3) / 2 + 3

/-- Twice the logarithm of `n + 1`, plus four. -/
def rbRounds (n : Nat) : Nat := 2 * Nat.log2 (n + 1) + 4

theorem le_avlRounds {x n : Nat} (h : 4 ^ x ≤ (n + 1) ^ 3) : x + 3 ≤ avlRounds n := by
  have h2 : 2 ^ (2 * x) ≤ (n + 1) ^ 3 := by rw [Nat.pow_mul]; exact h
  have := (Nat.le_log2 (Nat.pos_iff_ne_zero.mp (Nat.pow_pos (by omega)))).mpr h2
  unfold avlRounds; omega

theorem le_rbRounds {x n : Nat} (h : 2 ^ (x / 2) ≤ n + 1) : x + 3 ≤ rbRounds n := by
  have := (Nat.le_log2 (by omega)).mpr h
  unfold rbRounds; omega

theorem EndsBy.same {β : Type} {k : Nat} {f : Nat → PyM β} {r : PyM β} {x : β} (h1 : EndsWith f (.ok x)) (h2 : EndsBy k f r) : r = .ok x := by
  obtain ⟨n, h⟩ := h1
  exact (h2 (max n k) (by omega)).symm.trans (h (max n k) (by omega))

/-- What a tree answers within `b` rounds: `search`, `lower_bound`, `upper_bound`. -/
def AnswersWithin (lt : κ → κ → Bool) (b : Nat) (t : BTree κ δ) (m : κ → Option (Option δ)) : Prop :=
  ∀ k, (∃ r, EndsBy b (fun n => bstSearch lt n t k) (.ok r) ∧ Answers t k (m k) r) ∧
    (∃ r, EndsBy b (fun n => bstLower lt n t k) (.ok r) ∧ LeastOf lt (fun a => (m a).isSome ∧ lt a k = false) r) ∧
    (∃ r, EndsBy b (fun n => bstUpper lt n t k) (.ok r) ∧ LeastOf lt (fun a => (m a).isSome ∧ lt k a = true) r)

theorem answersWithin {lt : κ → κ → Bool} (ht : StrictTotal (ltRel lt)) {up : Bool} {t : BTree κ δ} {T : Shape} {m : κ → Option (Option δ)}
    (h : TreeAt up t T) (hs : Srt lt t.at T) (hc : Carries t T m) {b : Nat} (hb : T.depth + 2 ≤ b) : AnswersWithin lt b t m := by
  intro k
  obtain ⟨r, hr, ha⟩ := search_map ht h hs hc k
  obtain ⟨c, S, e, _, hrun⟩ := search_spec ht h hs k
  have e1 : EndsBy b (fun n => bstSearch lt n t k) (.ok S.root) := fun n hn => hrun n (by omega)
  have key : ∀ upper, ∃ r, EndsBy b (fun n => boundHelper lt t k upper n (some t.rootIdx)) (.ok r) ∧
      LeastOf lt (fun a => (m a).isSome ∧ Beyond lt upper k a) r := by
    intro upper
    obtain ⟨r, hr, hl⟩ := bound_map ht h hs hc upper k
    obtain ⟨r', _, hrun⟩ := bound_spec ht (k := k) (upper := upper) T none h.linked hs
    have e2 : EndsBy b (fun n => boundHelper lt t k upper n (some t.rootIdx)) (.ok r') := fun n hn => by
      have := hrun n (by omega)
      rwa [h.root] at this
    exact ⟨r, EndsBy.same hr e2 ▸ e2, hl⟩
  obtain ⟨r1, a1, b1⟩ := key false
  obtain ⟨r2, a2, b2⟩ := key true
  exact ⟨⟨r, EndsBy.same hr e1 ▸ e1, ha⟩, ⟨r1, a1, by simpa only [Beyond, Bool.false_eq_true, if_false] using b1⟩,
    ⟨r2, a2, by simpa only [Beyond, if_true] using b2⟩⟩

/-! ## AVL trees -/

theorem avl_within {lt : κ → κ → Bool} (ht : StrictTotal (ltRel lt)) {os : Bool} (ks : List κ) : ∀ (ops : List (κ × Option δ)) (t : BTree κ δ)
    (m : κ → Option (Option δ)), AvlState lt os t m → (∀ k, (m k).isSome → k ∈ ks) → (∀ op ∈ ops, op.1 ∈ ks) →
    ∃ t', AvlState lt os t' (fun k => (lastData ops k).or (m k)) ∧ EndsBy (avlRounds ks.length) (fun n => avlInserts lt n t ops) (.ok t') := by
  intro ops
  induction ops with
  | nil => intro t m h _ _; exact ⟨t, by simpa [lastData] using h, fun _ _ => rfl⟩
  | cons op ops ih =>
    intro t m h hm hk
    obtain ⟨_, t1, h1, n0, hn, r1⟩ := avlInsert_steps ht h op.1 op.2
    obtain ⟨t2, h2, r2⟩ := ih t1 _ h1 (by
      intro k hk'
      split at hk'
      · rename_i e; rw [e]; exact hk op (by simp)
      · exact hm k hk') (fun o ho => hk o (by simp [ho]))
    refine ⟨t2, by rw [lastData_cons_eq]; exact h2, fun fuel hf => ?_⟩
    have := le_avlRounds (hn ks hm)
    have e1 := (r1 fuel (by omega)).2
    have e2 := r2 fuel hf
    dsimp only [avlInserts] at e2 ⊢
    rw [List.foldlM_cons, e1]
    exact e2

/-- **C126** for AVL trees: in every history of insertions of keys from a list of `n` keys, repeated in any way, no loop of any `insert` takes more than
`1.5 log2 (n + 1) + 3` rounds, nor does any loop of a later `search`, `lower_bound` or `upper_bound`, whatever the key; nor, with order statistics, any loop of
`select` and `rank`. -/
theorem C126_avl {lt : κ → κ → Bool} (ht : StrictTotal (ltRel lt)) (os : Bool) (ops : List (κ × Option δ)) (hne : ops ≠ []) (ks : List κ)
    (hks : ∀ op ∈ ops, op.1 ∈ ks) :
    ∃ t, EndsBy (avlRounds ks.length) (fun n => avlInserts lt n (btEmpty os) ops) (.ok t) ∧ AnswersWithin lt (avlRounds ks.length) t (lastData ops) ∧
      (os = true → ∃ keys, KeysInOrder lt (lastData ops) keys ∧
        (∀ (i : Nat), i < keys.length → ∃ n, EndsBy (avlRounds ks.length) (fun f => bstSelect lt f t ((i : Int) + 1)) (.ok (some n)) ∧ n.key = keys[i]?) ∧
        (∀ (i : Nat) k, keys[i]? = some k → EndsBy (avlRounds ks.length) (fun f => bstRank lt f t k) (.ok (some (i + 1)))) ∧
        (∀ k, k ∉ ops.map (·.1) → EndsBy (avlRounds ks.length) (fun f => bstRank lt f t k) (.ok none))) := by
  obtain ⟨t, hst, hrun⟩ := avl_within ht ks ops (btEmpty os) (fun _ => none) (.empty rfl (fun _ => rfl)) (by simp) hks
  simp only [Option.or_none] at hst
  refine ⟨t, hrun, ?_⟩
  cases hst with
  | empty h hm => exact absurd (ops_none hm) hne
  | tree T ok car hos ann bal =>
    have h1 := keys_count ht ok.srt ok.tree.nodup car (ks := ks) (by
      intro k hk
      rw [lastData_isSome] at hk
      obtain ⟨op, ho, rfl⟩ := List.mem_map.mp hk
      exact hks op ho)
    have hd : T.depth + 3 ≤ avlRounds ks.length := le_avlRounds (Nat.le_trans (balanced_log bal) (Nat.pow_le_pow_left (by omega) _))
    refine ⟨answersWithin ht ok.tree ok.srt car (by omega), ?_⟩
    rintro rfl
    obtain ⟨keys, a1, a2, a3, a4, a5⟩ := select_steps ht ok.tree ok.srt (ann.2 rfl) (by rw [ok.num_top, ok.count]) car
    refine ⟨keys, a1, fun i hi => ?_, fun i k hk => (a4 i k hk).mono (by omega), fun k hk => (a5 k ?_).mono (by omega)⟩
    · obtain ⟨n, b1, b2, _⟩ := a2 i hi
      exact ⟨n, b1.mono (by omega), b2⟩
    · cases e : lastData ops k with
      | none => rfl
      | some d => exact absurd ((lastData_isSome ops k).mp (by rw [e]; rfl)) hk

/-! ## Red-black trees -/

theorem rb_within {lt : κ → κ → Bool} (ht : StrictTotal (ltRel lt)) {os : Bool} (ks : List κ) : ∀ (ops : List (κ × Option δ)) (t : BTree κ δ)
    (m : κ → Option (Option δ)), RbState lt os True t m → (∀ k, (m k).isSome → k ∈ ks) → (∀ op ∈ ops, op.1 ∈ ks) → (ops.map (·.1)).Nodup →
    (∀ op ∈ ops, m op.1 = none) →
    ∃ t', RbState lt os True t' (fun k => (lastData ops k).or (m k)) ∧ EndsBy (rbRounds ks.length) (fun n => rbInserts lt n t ops) (.ok t') := by
  intro ops
  induction ops with
  | nil => intro t m h _ _ _ _; exact ⟨t, by simpa [lastData] using h, fun _ _ => rfl⟩
  | cons op ops ih =>
    intro t m h hm hk hd hnew
    obtain ⟨t1, h1, n0, hn, r1⟩ := rbInsert_steps ht h op.1 op.2
    have hop := hnew op (by simp)
    simp only [hop, and_self] at h1
    simp only [List.map_cons, List.nodup_cons] at hd
    obtain ⟨t2, h2, r2⟩ := ih t1 _ h1 (by
      intro k hk'
      split at hk'
      · rename_i e; rw [e]; exact hk op (by simp)
      · exact hm k hk') (fun o ho => hk o (by simp [ho])) hd.2 (by
      intro o ho
      have hne : ¬ o.1 = op.1 := fun e => hd.1 (by rw [← e]; exact List.mem_map.mpr ⟨o, ho, rfl⟩)
      simp only [if_neg hne]
      exact hnew o (by simp [ho]))
    refine ⟨t2, by rw [lastData_cons_eq]; exact h2, fun fuel hf => ?_⟩
    have := le_rbRounds (hn trivial ks hm)
    have e1 := r1 fuel (by omega)
    have e2 := r2 fuel hf
    dsimp only [rbInserts] at e2 ⊢
    rw [List.foldlM_cons, e1]
    exact e2

/-- **C126** for red-black trees: when `n` different keys are inserted in any order, no loop of any `insert` takes more than `2 log2 (n + 1) + 4` rounds, nor does
any loop of a later `search`, `lower_bound` or `upper_bound`, whatever the key. -/
theorem C126_red_black {lt : κ → κ → Bool} (ht : StrictTotal (ltRel lt)) (os : Bool) (ops : List (κ × Option δ)) (hne : ops ≠ []) (hd : (ops.map (·.1)).Nodup) :
    ∃ t, EndsBy (rbRounds ops.length) (fun n => rbInserts lt n (btEmpty os) ops) (.ok t) ∧ AnswersWithin lt (rbRounds ops.length) t (lastData ops) := by
  obtain ⟨t, hst, hrun⟩ := rb_within ht (ops.map (·.1)) ops (btEmpty os) (fun _ => none) (.empty rfl (fun _ => rfl)) (by simp)
    (fun op ho => List.mem_map.mpr ⟨op, ho, rfl⟩) hd (fun _ _ => rfl)
  simp only [Option.or_none, List.length_map] at hst hrun
  refine ⟨t, hrun, ?_⟩
  cases hst with
  | empty h hm => exact absurd (ops_none hm) hne
  | tree T ok car rb black colour =>
    have h1 := keys_count ht ok.srt ok.tree.nodup car (ks := ops.map (·.1)) (fun k hk => (lastData_isSome ops k).mp hk)
    rw [List.length_map] at h1
    obtain ⟨x1, N, x2⟩ := colour trivial
    have hb : BlackRoot t.at T := by intro j hj; rw [ok.tree.root] at hj; cases hj; exact black
    have hd := (redOk_depth rb.cols x1 x2).2 hb
    have hs := blackHeight_size x2
    have : T.depth + 3 ≤ rbRounds ops.length :=
      le_rbRounds (Nat.le_trans (Nat.pow_le_pow_right (by omega) (show T.depth / 2 ≤ N by omega)) (by omega))
    exact answersWithin ht ok.tree ok.srt car (by omega)

/-- The bounds for a million keys: 32 and 42 rounds. -/
example : avlRounds 1000000 = 32 ∧ rbRounds 1000000 = 42 := by decide +kernel

/-- Three sorted keys in a plain search tree: the third is at depth 3; in the AVL tree it takes two rounds and the test that ends the loop. -/
example : ∃ t, avlInserts (κ := Nat) (δ := Char) (fun a b => decide (a < b)) (avlRounds 3) (btEmpty false) [(1, none), (2, none), (3, some 'c')] = .ok t ∧
    bstSearch (fun a b => decide (a < b)) 3 t 3 = .ok (some 2) :=
  ⟨_, rfl, by decide +kernel⟩

end Props
