import Verif.Props.Lca
import Verif.Lemmas.Bind

/-!
# C76: everything algorithm 2 of `lowest_common_ancestor` answers
-/
namespace Props
open Py Model Spec
set_option linter.unusedSectionVars false
variable {κ δ : Type} [DecidableEq κ]

/-- The first position of the tree from left to right. -/
def Shape.first : Shape → Nat → Nat
  | .leaf, d => d
  | .node l i _, _ => Shape.first l i

theorem first_mem : ∀ (S : Shape) (d : Nat), S ≠ .leaf → S.first d ∈ S.ids := by
  intro S
  induction S with
  | leaf => intro d h; exact absurd rfl h
  | node l i r ih _ =>
    intro d _
    cases l with
    | leaf => simp [Shape.first, Shape.ids]
    | node l1 i1 r1 =>
      have := ih i (by intro h; cases h)
      rw [Shape.first, Shape.ids]
      exact List.mem_append_left _ this

/-- The first position holds the least key. -/
theorem first_least {lt : κ → κ → Bool} {h : Cells κ δ} : ∀ (S : Shape) (d : Nat), Srt lt h S → ∀ x ∈ S.ids, x = S.first d ∨ KLt lt h (S.first d) x := by
  intro S
  induction S with
  | leaf => intro d _ x hx; simp [Shape.ids] at hx
  | node l i r ih1 ih2 =>
    intro d hs x hx
    have hp := hs.1
    simp only [Shape.ids, List.pairwise_append, List.pairwise_cons] at hp
    cases l with
    | leaf =>
      simp only [Shape.ids, List.nil_append, List.mem_cons] at hx
      rcases hx with rfl | hx
      · exact .inl rfl
      · exact .inr (hp.2.1.1 x hx)
    | node l1 i1 r1 =>
      have hm := first_mem (.node l1 i1 r1) i (by intro h; cases h)
      rw [Shape.first]
      have hx' : x ∈ (Shape.node l1 i1 r1).ids ∨ x ∈ i :: r.ids := by
        rw [Shape.ids] at hx; exact List.mem_append.mp hx
      rcases hx' with hx | hx
      · exact ih1 i hs.left x hx
      · exact .inr (hp.2.2 _ (by simpa [Shape.ids] using hm) x hx)

/-- The walk below a node smaller than everything in `S`: it goes left until it meets `v` or passes it. -/
theorem lca2_down {lt : κ → κ → Bool} (ht : StrictTotal (ltRel lt)) {up : Bool} {t : BTree κ δ} {u v : Nat} {ku kv : κ} (hu : keyOf t.at u = some ku)
    (hv : keyOf t.at v = some kv) : ∀ (S : Shape) (p : Option Nat), Linked up t.at p S → Srt lt t.at S → S.ids.Nodup → u ∉ S.ids → v ∈ S.ids →
    (∀ x ∈ S.ids, ∀ a, keyOf t.at x = some a → lt ku a = true) →
    ∀ i a, S.root = some i → keyOf t.at i = some a → v ≠ i →
    ∃ w b, IsLca S (S.first 0) v w ∧ keyOf t.at w = some b ∧ ∃ s : Lca2St κ, (s.out = some (some b) ∨ s.out = none ∧ s.curr = some w) ∧
      ∀ fuel > S.depth, whileLoop fuel lca2Cond (lca2Body lt t u v) ⟨some i, lt ku a, lt kv a, none⟩ = .ok s := by
  obtain ⟨nu, enu, hnu⟩ := keyAt_iff.mpr hu
  obtain ⟨nv, env, hnv⟩ := keyAt_iff.mpr hv
  replace enu := at_some.mpr enu
  replace env := at_some.mpr env
  intro S
  induction S with
  | leaf => intro p _ _ _ _ h; simp [Shape.ids] at h
  | node l y r ih1 ih2 =>
    intro p hl hs hn hum hvm habove i a hi ha hvy
    simp only [Shape.root, Option.some.injEq] at hi; subst hi
    obtain ⟨⟨n, en, n1, n2, _⟩, hl1, hl2⟩ := hl
    obtain ⟨nd1, nd2, h1, h2, h3⟩ := nodup_node hn
    have hp := hs.1
    simp only [Shape.ids, List.pairwise_append, List.pairwise_cons] at hp
    have hku : lt ku a = true := habove y (by simp [Shape.ids]) a ha
    have hmem : v ∈ l.ids ∨ v = y ∨ v ∈ r.ids := by simpa [Shape.ids] using hvm
    rw [hku]
    rcases hmem with hvl | rfl | hvr
    · -- `v` is on the left
      have hkv : lt kv a = true := by
        obtain ⟨x, z, hx, hz, hxz⟩ := hp.2.2 v hvl y (by simp)
        rw [hv] at hx; rw [ha] at hz; cases hx; cases hz; exact hxz
      rw [hkv]
      have hcond : lca2Cond (⟨some y, true, true, none⟩ : Lca2St κ) = .ok true := by simp [lca2Cond]
      cases l with
      | leaf => simp [Shape.ids] at hvl
      | node l1 x r1 =>
        obtain ⟨b, hb⟩ := Option.isSome_iff_exists.mp (hs.left.2 x (by simp [Shape.ids]))
        obtain ⟨nx, enx, hnx⟩ := keyAt_iff.mpr hb
        replace enx := at_some.mpr enx
        have hxu : x ≠ u := fun e => hum (by rw [← e]; simp [Shape.ids])
        have hfirst : (Shape.node (.node l1 x r1) y r).first 0 = (Shape.node l1 x r1).first 0 := rfl
        rw [hfirst]
        have hfm := first_mem (.node l1 x r1) 0 (by intro h; cases h)
        by_cases hxv : x = v
        · subst hxv
          obtain ⟨_, _, q1, q2, _⟩ := nodup_node nd1
          refine ⟨x, b, isLca_left hn (isLca_root nd1 hfm hvl (fun h => q1 h.2) (fun h => q2 h.2)), hb,
            ⟨some x, true, true, some (some b)⟩, .inl rfl, ?_⟩
          intro fuel hf
          obtain ⟨f, rfl⟩ : ∃ f, fuel = f + 2 := ⟨fuel - 2, by simp only [Shape.depth] at hf; omega⟩
          rw [while_step (f + 1) hcond (s' := ⟨some x, true, true, some (some b)⟩), while_stop _ (by simp [lca2Cond])]
          simp only [lca2Body, getNode?_ok en, ok_bind, n1, Shape.root, Bool.and_self, if_true]
          rw [if_pos (.inr trivial)]
          simp only [getNode?_ok enx, ok_bind, hnx]
        · obtain ⟨w, b', hL, hb', s, hs', hrun⟩ := ih1 _ hl1 hs.left nd1 (fun h => hum (by simp only [Shape.ids] at h ⊢; exact List.mem_append_left _ h)) hvl
            (fun z hz c hc => habove z (by simp only [Shape.ids] at hz ⊢; exact List.mem_append_left _ hz) c hc) x b rfl hb (fun e => hxv e.symm)
          refine ⟨w, b', isLca_left hn hL, hb', s, hs', ?_⟩
          intro fuel hf
          obtain ⟨f, rfl⟩ : ∃ f, fuel = f + 1 := ⟨fuel - 1, by omega⟩
          rw [while_step f hcond (s' := ⟨some x, lt ku b, lt kv b, none⟩)]
          · exact hrun f (by simp only [Shape.depth] at hf ⊢; omega)
          · simp only [lca2Body, getNode?_ok en, ok_bind, n1, Shape.root, Bool.and_self, if_true]
            rw [if_neg (by simp [hxu, hxv])]
            simp only [getNode_ok enu, getNode_ok env, getNode?_ok enx, ok_bind, hnu, hnv, hnx, cmpKey]
    · exact absurd rfl hvy
    · -- `v` is on the right: the walk stops
      have hkv : lt kv a = false := by
        obtain ⟨x, z, hx, hz, hxz⟩ := hp.2.1.1 v hvr
        rw [ha] at hx; rw [hv] at hz; cases hx; cases hz
        cases h : lt kv a with
        | false => rfl
        | true => exact absurd (ht.trans _ _ _ h hxz) (ht.irrefl _)
      rw [hkv]
      refine ⟨y, a, isLca_root hn (first_mem _ 0 (by intro h; cases h)) hvm (fun h => h3 v h.2 hvr) ?_, ha, ⟨some y, true, false, none⟩, .inr ⟨rfl, rfl⟩, ?_⟩
      · rintro ⟨hf, _⟩
        cases l with
        | leaf => exact h2 (by simpa [Shape.first] using hf)
        | node l1 x r1 => exact h3 _ (first_mem (.node l1 x r1) y (by intro h; cases h)) hf
      · intro fuel hf
        obtain ⟨f, rfl⟩ : ∃ f, fuel = f + 1 := ⟨fuel - 1, by omega⟩
        exact while_stop _ (by simp [lca2Cond])

/-- The walk below a node smaller than everything in `S`, when both keys are that node's: it runs out of the tree. -/
theorem lca2_lost {lt : κ → κ → Bool} {up : Bool} {t : BTree κ δ} {u : Nat} {ku : κ} (hu : keyOf t.at u = some ku) :
    ∀ (S : Shape) (p : Option Nat), Linked up t.at p S → Srt lt t.at S → u ∉ S.ids →
    (∀ x ∈ S.ids, ∀ a, keyOf t.at x = some a → lt ku a = true) → ∀ i a, S.root = some i → keyOf t.at i = some a →
    ∀ fuel > S.depth, whileLoop fuel lca2Cond (lca2Body lt t u u) ⟨some i, lt ku a, lt ku a, none⟩ = .error .typeError := by
  obtain ⟨nu, enu, hnu⟩ := keyAt_iff.mpr hu
  replace enu := at_some.mpr enu
  intro S
  induction S with
  | leaf => intro p _ _ _ _ i a h; cases h
  | node l y r ih1 ih2 =>
    intro p hl hs hum habove i a hi ha fuel hf
    simp only [Shape.root, Option.some.injEq] at hi; subst hi
    obtain ⟨⟨n, en, n1, n2, _⟩, hl1, hl2⟩ := hl
    have hku : lt ku a = true := habove y (by simp [Shape.ids]) a ha
    rw [hku]
    obtain ⟨f, rfl⟩ : ∃ f, fuel = f + 1 := ⟨fuel - 1, by omega⟩
    have hcond : lca2Cond (⟨some y, true, true, none⟩ : Lca2St κ) = .ok true := by simp [lca2Cond]
    cases l with
    | leaf =>
      have hb : lca2Body lt t u u ⟨some y, true, true, none⟩ = .error .typeError := by
        simp only [lca2Body, getNode?_ok en, ok_bind, n1, Shape.root, Bool.and_self, if_true]
        rw [if_neg (by simp)]
        simp [getNode_ok enu, getNode?, asIdx]
      simp [whileLoop, hcond, hb]
    | node l1 x r1 =>
      obtain ⟨b, hb⟩ := Option.isSome_iff_exists.mp (hs.left.2 x (by simp [Shape.ids]))
      obtain ⟨nx, enx, hnx⟩ := keyAt_iff.mpr hb
      replace enx := at_some.mpr enx
      have hxu : x ≠ u := fun e => hum (by rw [← e]; simp [Shape.ids])
      rw [while_step f hcond (s' := ⟨some x, lt ku b, lt ku b, none⟩)]
      · exact ih1 _ hl1 hs.left (fun h => hum (by simp only [Shape.ids] at h ⊢; exact List.mem_append_left _ h))
          (fun z hz c hc => habove z (by simp only [Shape.ids] at hz ⊢; exact List.mem_append_left _ hz) c hc) x b rfl hb f
          (by simp only [Shape.depth] at hf ⊢; omega)
      · simp only [lca2Body, getNode?_ok en, ok_bind, n1, Shape.root, Bool.and_self, if_true]
        rw [if_neg (by simp [hxu])]
        simp only [getNode_ok enu, getNode?_ok enx, ok_bind, hnu, hnx, cmpKey]

/-- The state with the two sides exchanged. -/
def lcaSwap (s : Lca2St κ) : Lca2St κ := ⟨s.curr, s.vLeft, s.uLeft, s.out⟩

theorem lca2Body_swap {lt : κ → κ → Bool} {t : BTree κ δ} {u v : Nat} {nu nv : BNode κ δ} {ku kv : κ} (hu : getNode t u = .ok nu) (hv : getNode t v = .ok nv)
    (hnu : nu.key = some ku) (hnv : nv.key = some kv) (s : Lca2St κ) :
    lca2Body lt t v u (lcaSwap s) = (lca2Body lt t u v s).map lcaSwap := by
  simp only [lca2Body, lcaSwap, hu, hv, ok_bind, hnu, hnv, Bool.and_comm s.vLeft]
  cases h1 : getNode? t s.curr with
  | error e => rfl
  | ok c =>
    simp only [ok_bind]
    generalize hx : (if (s.uLeft && s.vLeft) = true then c.left else c.right) = x
    by_cases h : x = some u ∨ x = some v
    · rw [if_pos h, if_pos h.symm]
      cases getNode? t x with
      | error e => rfl
      | ok n => rfl
    · rw [if_neg h, if_neg (fun h' => h h'.symm)]
      cases getNode? t x with
      | error e => rfl
      | ok n =>
        simp only [ok_bind]
        cases n.key with
        | none => rfl
        | some b => rfl

theorem lca2_swap {lt : κ → κ → Bool} {t : BTree κ δ} {u v : Nat} {nu nv : BNode κ δ} {ku kv : κ} (hu : getNode t u = .ok nu) (hv : getNode t v = .ok nv)
    (hnu : nu.key = some ku) (hnv : nv.key = some kv) : ∀ (fuel : Nat) (s : Lca2St κ),
    whileLoop fuel lca2Cond (lca2Body lt t v u) (lcaSwap s) = (whileLoop fuel lca2Cond (lca2Body lt t u v) s).map lcaSwap := by
  intro fuel
  induction fuel with
  | zero => intro s; rfl
  | succ f ih =>
    intro s
    have hc : lca2Cond (lcaSwap s) = lca2Cond s := by
      simp only [lca2Cond, lcaSwap]
      cases s.uLeft <;> cases s.vLeft <;> rfl
    simp only [whileLoop, hc, lca2Body_swap hu hv hnu hnv]
    cases lca2Cond s with
    | error e => rfl
    | ok b =>
      cases b with
      | false => rfl
      | true =>
        simp only [ok_bind, if_true]
        cases lca2Body lt t u v s with
        | error e => rfl
        | ok s' => exact ih s'

theorem lca2_symm {lt : κ → κ → Bool} {t : BTree κ δ} {u v : Nat} {j k a0 : κ} {fuel : Nat} (hj : bstSearch lt fuel t j = .ok (some u))
    (hk : bstSearch lt fuel t k = .ok (some v)) (hu : keyOf t.at u = some j) (hv : keyOf t.at v = some k) (ha : keyOf t.at t.rootIdx = some a0) :
    lca2 lt fuel t k j = lca2 lt fuel t j k := by
  obtain ⟨nu, enu, hnu⟩ := keyAt_iff.mpr hu
  obtain ⟨nv, env, hnv⟩ := keyAt_iff.mpr hv
  obtain ⟨nr, enr, hnr⟩ := keyAt_iff.mpr ha
  have gu := getNode_ok (at_some.mpr enu)
  have gv := getNode_ok (at_some.mpr env)
  simp only [lca2, hj, hk, ok_bind, gu, gv, getNode_ok (at_some.mpr enr), hnu, hnv, hnr, cmpKey]
  have := lca2_swap (lt := lt) gu gv hnu hnv fuel ⟨some t.rootIdx, lt j a0, lt k a0, none⟩
  simp only [lcaSwap] at this
  rw [this]
  cases whileLoop fuel lca2Cond (lca2Body lt t u v) ⟨some t.rootIdx, lt j a0, lt k a0, none⟩ with
  | error e => rfl
  | ok s => rfl

/-- The root's key and a key above it. -/
theorem lca2_root {lt : κ → κ → Bool} (ht : StrictTotal (ltRel lt)) {up : Bool} {t : BTree κ δ} {T : Shape} (h : TreeAt up t T)
    (hs : Srt lt t.at T) {v : Nat} {a0 k : κ} (hv : v ∈ T.ids) (hk : keyOf t.at v = some k)
    (ha0 : keyOf t.at t.rootIdx = some a0) (hlt : lt a0 k = true) :
    ∃ m b w a, m ∈ T.ids ∧ keyOf t.at m = some b ∧ lt a0 b = true ∧ (∀ x ∈ T.ids, ∀ c, keyOf t.at x = some c → lt a0 c = true → lt c b = false) ∧
      IsLca T m v w ∧ keyOf t.at w = some a ∧
      EndsWith (fun n => whileLoop n lca2Cond (lca2Body lt t t.rootIdx v) ⟨some t.rootIdx, lt a0 a0, lt k a0, none⟩ >>= fun s =>
        match s.out with
        | some o => .ok o
        | none => do
          let n ← getNode? t s.curr
          .ok n.key) (.ok (some a)) := by
  have hirr : ∀ a, lt a a = false := fun a => by simpa using ht.irrefl a
  have hasym : ∀ a b, lt a b = true → lt b a = false := by
    intro a b h
    cases h' : lt b a with
    | false => rfl
    | true => exact absurd (ht.trans _ _ _ h h') (ht.irrefl _)
  obtain ⟨hroot, hlink, hnd⟩ := h
  cases T with
  | leaf => cases hroot
  | node l i r =>
    simp only [Shape.root, Option.some.injEq] at hroot; subst hroot
    obtain ⟨⟨n, en, n1, n2, _⟩, hl1, hl2⟩ := hlink
    obtain ⟨nd1, nd2, h1, h2, h3⟩ := nodup_node hnd
    have hp := hs.1
    simp only [Shape.ids, List.pairwise_append, List.pairwise_cons] at hp
    have hhigh : ∀ j ∈ r.ids, ∀ b, keyOf t.at j = some b → lt a0 b = true := by
      intro j hj b hb
      obtain ⟨x, z, hx, hz, hxz⟩ := hp.2.1.1 j hj
      rw [ha0] at hx; rw [hb] at hz; cases hx; cases hz; exact hxz
    have hlow : ∀ j ∈ l.ids, ∀ b, keyOf t.at j = some b → lt b a0 = true := by
      intro j hj b hb
      obtain ⟨x, z, hx, hz, hxz⟩ := hp.2.2 j hj t.rootIdx (by simp)
      rw [hb] at hx; rw [ha0] at hz; cases hx; cases hz; exact hxz
    have inr : ∀ x ∈ (Shape.node l t.rootIdx r).ids, ∀ c, keyOf t.at x = some c → lt a0 c = true → x ∈ r.ids := by
      intro x hx c hc hac
      have : x ∈ l.ids ∨ x = t.rootIdx ∨ x ∈ r.ids := by simpa [Shape.ids] using hx
      rcases this with h | rfl | h
      · rw [hasym _ _ (hlow x h c hc)] at hac; cases hac
      · rw [ha0] at hc; cases hc; rw [hirr] at hac; cases hac
      · exact h
    have hvr := inr v hv k hk hlt
    have hrne : r ≠ .leaf := by intro e; rw [e] at hvr; simp [Shape.ids] at hvr
    have hfm := first_mem r 0 hrne
    obtain ⟨b, hb⟩ := Option.isSome_iff_exists.mp (hs.right.2 _ hfm)
    have hmT : r.first 0 ∈ (Shape.node l t.rootIdx r).ids := by simp [Shape.ids, hfm]
    have hleast : ∀ x ∈ (Shape.node l t.rootIdx r).ids, ∀ c, keyOf t.at x = some c → lt a0 c = true → lt c b = false := by
      intro x hx c hc hac
      rcases first_least r 0 hs.right x (inr x hx c hc hac) with e | ⟨p, q, hp', hq, hpq⟩
      · rw [e, hb] at hc; cases hc; exact hirr _
      · rw [hb] at hp'; rw [hc] at hq; cases hp'; cases hq; exact hasym _ _ hpq
    have hcond : lca2Cond (⟨some t.rootIdx, false, false, none⟩ : Lca2St κ) = .ok true := by simp [lca2Cond]
    rw [hirr a0, hasym _ _ hlt]
    obtain ⟨nv, env, hnv⟩ := keyAt_iff.mpr hk
    replace env := at_some.mpr env
    have hna : n.key = some a0 := by simpa [keyOf, en] using ha0
    cases r with
    | leaf => exact absurd rfl hrne
    | node r1 x r2 =>
      obtain ⟨bx, hbx⟩ := Option.isSome_iff_exists.mp (hs.right.2 x (by simp [Shape.ids]))
      obtain ⟨nx, enx, hnx⟩ := keyAt_iff.mpr hbx
      replace enx := at_some.mpr enx
      have hxu : x ≠ t.rootIdx := fun e => h2 (by rw [← e]; simp [Shape.ids])
      by_cases hxv : x = v
      · subst hxv
        obtain ⟨_, _, q1, q2, _⟩ := nodup_node nd2
        refine ⟨_, b, x, bx, hmT, hb, hhigh _ hfm b hb, hleast,
          isLca_right hnd (isLca_root nd2 hfm hvr (fun h => q1 h.2) (fun h => q2 h.2)), hbx, 2, ?_⟩
        intro fuel hf
        obtain ⟨f, rfl⟩ : ∃ f, fuel = f + 2 := ⟨fuel - 2, by omega⟩
        dsimp only
        rw [while_step (f + 1) hcond (s' := ⟨some x, false, false, some (some bx)⟩), while_stop _ (by simp [lca2Cond]), ok_bind]
        simp only [lca2Body, getNode?_ok en, ok_bind, n2, Shape.root, Bool.and_self, Bool.false_eq_true, if_false]
        rw [if_pos (.inr trivial)]
        simp only [getNode?_ok enx, ok_bind, hnx]
      · obtain ⟨w, a, hL, ha, s, hs', hrun⟩ := lca2_down ht ha0 hk _ _ hl2 hs.right nd2 h2 hvr hhigh x bx rfl hbx (fun e => hxv e.symm)
        obtain ⟨nw, enw, hnw⟩ := keyAt_iff.mpr ha
        refine ⟨_, b, w, a, hmT, hb, hhigh _ hfm b hb, hleast, isLca_right hnd hL, ha, (Shape.node r1 x r2).depth + 2, ?_⟩
        intro fuel hf
        obtain ⟨f, rfl⟩ : ∃ f, fuel = f + 1 := ⟨fuel - 1, by omega⟩
        dsimp only
        rw [while_step f hcond (s' := ⟨some x, lt a0 bx, lt k bx, none⟩), hrun f (by omega), ok_bind]
        · rcases hs' with e | ⟨e1, e2⟩
          · rw [e]
          · rw [e1, e2]
            simp only [getNode?_ok (at_some.mpr enw), ok_bind, hnw]
        · simp only [lca2Body, getNode?_ok en, ok_bind, n2, Shape.root, Bool.and_self, Bool.false_eq_true, if_false]
          rw [if_neg (by simp [hxu, hxv])]
          simp only [getNode_ok en, getNode_ok env, getNode?_ok enx, ok_bind, hna, hnv, hnx, cmpKey]

/-- The root's key twice. -/
theorem lca2_rootTwice {lt : κ → κ → Bool} (ht : StrictTotal (ltRel lt)) {up : Bool} {t : BTree κ δ} {T : Shape} (h : TreeAt up t T)
    (hs : Srt lt t.at T) {a0 : κ} (ha0 : keyOf t.at t.rootIdx = some a0) :
    ∀ fuel > T.depth + 1, whileLoop fuel lca2Cond (lca2Body lt t t.rootIdx t.rootIdx) ⟨some t.rootIdx, lt a0 a0, lt a0 a0, none⟩ = .error .typeError := by
  have hirr : ∀ a, lt a a = false := fun a => by simpa using ht.irrefl a
  obtain ⟨hroot, hlink, hnd⟩ := h
  cases T with
  | leaf => cases hroot
  | node l i r =>
    simp only [Shape.root, Option.some.injEq] at hroot; subst hroot
    obtain ⟨⟨n, en, n1, n2, _⟩, hl1, hl2⟩ := hlink
    obtain ⟨nd1, nd2, h1, h2, h3⟩ := nodup_node hnd
    have hp := hs.1
    simp only [Shape.ids, List.pairwise_append, List.pairwise_cons] at hp
    have hhigh : ∀ j ∈ r.ids, ∀ b, keyOf t.at j = some b → lt a0 b = true := by
      intro j hj b hb
      obtain ⟨x, z, hx, hz, hxz⟩ := hp.2.1.1 j hj
      rw [ha0] at hx; rw [hb] at hz; cases hx; cases hz; exact hxz
    have hna : n.key = some a0 := by simpa [keyOf, en] using ha0
    have hcond : lca2Cond (⟨some t.rootIdx, false, false, none⟩ : Lca2St κ) = .ok true := by simp [lca2Cond]
    rw [hirr a0]
    intro fuel hf
    obtain ⟨f, rfl⟩ : ∃ f, fuel = f + 1 := ⟨fuel - 1, by omega⟩
    cases r with
    | leaf =>
      have hb : lca2Body lt t t.rootIdx t.rootIdx ⟨some t.rootIdx, false, false, none⟩ = .error .typeError := by
        simp only [lca2Body, getNode?_ok en, ok_bind, n2, Shape.root, Bool.and_self, Bool.false_eq_true, if_false]
        rw [if_neg (by simp)]
        simp [getNode_ok en, getNode?, asIdx]
      simp [whileLoop, hcond, hb]
    | node r1 x r2 =>
      obtain ⟨b, hb⟩ := Option.isSome_iff_exists.mp (hs.right.2 x (by simp [Shape.ids]))
      obtain ⟨nx, enx, hnx⟩ := keyAt_iff.mpr hb
      replace enx := at_some.mpr enx
      have hxu : x ≠ t.rootIdx := fun e => h2 (by rw [← e]; simp [Shape.ids])
      rw [while_step f hcond (s' := ⟨some x, lt a0 b, lt a0 b, none⟩)]
      · exact lca2_lost ha0 _ _ hl2 hs.right h2 hhigh x b rfl hb f (by simp only [Shape.depth] at hf ⊢; omega)
      · simp only [lca2Body, getNode?_ok en, ok_bind, n2, Shape.root, Bool.and_self, Bool.false_eq_true, if_false]
        rw [if_neg (by simp [hxu])]
        simp only [getNode_ok en, getNode?_ok enx, ok_bind, hna, hnx, cmpKey]

/-- The least key inserted that is above `a0`. -/
def NextKey (lt : κ → κ → Bool) (keys : List κ) (a0 b : κ) : Prop := b ∈ keys ∧ lt a0 b = true ∧ ∀ c ∈ keys, lt a0 c = true → lt c b = false

/-- What algorithm 2 of `lowest_common_ancestor(j, k)` is asked about: it takes the root's key `a0` for the next larger key. `j'` and `k'` are the keys it
answers about. -/
def Stands (lt : κ → κ → Bool) (keys : List κ) (a0 j k j' k' : κ) : Prop :=
  (j ≠ a0 ∧ k ≠ a0 ∨ lt j a0 = true ∨ lt k a0 = true) ∧ j' = j ∧ k' = k ∨
  j = a0 ∧ lt a0 k = true ∧ NextKey lt keys a0 j' ∧ k' = k ∨
  k = a0 ∧ lt a0 j = true ∧ NextKey lt keys a0 k' ∧ j' = j

/-- After any history of insertions, for all keys: algorithm 2 of `lowest_common_ancestor(j, k)` raises `ValueError` if one of the keys has not been inserted;
`TypeError` if both are the root's key; and otherwise it answers the key of the deepest node with both as descendants, where the root's key stands for the next
larger key if the other key is larger than the root's (which is the defect). -/
theorem C76_lca2_exact {lt : κ → κ → Bool} (ht : StrictTotal (ltRel lt)) (os : Bool) (ops : List (κ × Option δ)) (hne : ops ≠ []) :
    ∃ t T a0, EndsWith (fun n => bstInserts lt n (btEmpty os) ops) (.ok t) ∧ HoldsTree t t.rootIdx T ∧ KeyAt t t.rootIdx a0 ∧ ∀ j k,
      (j ∉ ops.map (·.1) ∨ k ∉ ops.map (·.1) → EndsWith (fun n => lca2 lt n t j k) (.error .valueError)) ∧
      (j = a0 → k = a0 → EndsWith (fun n => lca2 lt n t j k) (.error .typeError)) ∧
      (j ∈ ops.map (·.1) → k ∈ ops.map (·.1) → ¬ (j = a0 ∧ k = a0) → ∃ j' k' u v w a, Stands lt (ops.map (·.1)) a0 j k j' k' ∧
        KeyAt t u j' ∧ KeyAt t v k' ∧ IsLca T u v w ∧ KeyAt t w a ∧ EndsWith (fun n => lca2 lt n t j k) (.ok (some a))) := by
  obtain ⟨t, T, hrun, ok, car, r0⟩ := bst_tree ht os ops hne
  obtain ⟨n, a0, en, hn⟩ := root_key ok.tree ok.srt
  have ha0 : keyOf t.at t.rootIdx = some a0 := by simp [keyOf, en, hn]
  have find : ∀ x ∈ T.ids, ∀ k, keyOf t.at x = some k → ∀ fuel > T.depth + 1, bstSearch lt fuel t k = .ok (some x) := by
    intro x hx k hxk fuel hf
    obtain ⟨c, S, rfl, hF, hrun⟩ := search_spec ht ok.tree ok.srt k
    rcases hF.here with rfl | ⟨l, y, r, rfl, hy⟩
    · exact absurd hxk (hF.absent ht x hx)
    · have hym : y ∈ (Around.plug c (.node l y r)).ids := by rw [Around.ids_plug]; simp [Shape.ids]
      have := ok.srt.inj ht hx hym hxk hy
      subst this
      exact hrun fuel hf
  have lose : ∀ k, (∀ x ∈ T.ids, keyOf t.at x ≠ some k) → ∀ fuel > T.depth + 1, bstSearch lt fuel t k = .ok none := by
    intro k hk fuel hf
    obtain ⟨c, S, rfl, hF, hrun⟩ := search_spec ht ok.tree ok.srt k
    rcases hF.here with rfl | ⟨l, y, r, rfl, hy⟩
    · exact hrun fuel hf
    · exact absurd hy (hk y (by rw [Around.ids_plug]; simp [Shape.ids]))
  have hrT : t.rootIdx ∈ T.ids := Shape.root_mem ok.tree.root
  have keys : ∀ x ∈ T.ids, ∀ c, keyOf t.at x = some c → c ∈ ops.map (·.1) := by
    intro x hx c hc
    rw [← lastData_isSome]
    refine Classical.byContradiction fun h => ?_
    exact car.absent h x hx hc
  have rootMem := keys _ hrT _ ha0
  refine ⟨t, T, a0, hrun, ⟨ok.tree.root, ok.tree.linked.weaken, ok.tree.nodup⟩, ⟨n, at_some.mp en, hn⟩, fun j k => ⟨?_, ?_, ?_⟩⟩
  · intro h
    refine ⟨T.depth + 2, fun fuel hf => ?_⟩
    by_cases hj : j ∈ ops.map (·.1)
    · have hk : k ∉ ops.map (·.1) := h.resolve_left (fun h => h hj)
      obtain ⟨u, hu, eu⟩ := car.pos ((lastData_isSome _ _).mpr hj)
      have e := lose k (car.absent (fun h => hk ((lastData_isSome _ _).mp h))) fuel hf
      simp only [lca2, find u hu j eu fuel hf, e, ok_bind]
    · have e := lose j (car.absent (fun h => hj ((lastData_isSome _ _).mp h))) fuel hf
      by_cases hk : k ∈ ops.map (·.1)
      · obtain ⟨v, hv, ev⟩ := car.pos ((lastData_isSome _ _).mpr hk)
        simp only [lca2, find v hv k ev fuel hf, e, ok_bind]
      · have e' := lose k (car.absent (fun h => hk ((lastData_isSome _ _).mp h))) fuel hf
        simp only [lca2, e, e', ok_bind]
  · rintro rfl rfl
    refine ⟨T.depth + 2, fun fuel hf => ?_⟩
    have e := lca2_rootTwice ht ok.tree ok.srt ha0 fuel hf
    simp only [lca2, find _ hrT _ ha0 fuel hf, ok_bind, getNode_ok en, hn, cmpKey, e, error_bind]
  · intro hj hk hnot
    obtain ⟨u, hu, eu⟩ := car.pos ((lastData_isSome _ _).mpr hj)
    obtain ⟨v, hv, ev⟩ := car.pos ((lastData_isSome _ _).mpr hk)
    have key : ∀ (k : κ) (v : Nat), v ∈ T.ids → keyOf t.at v = some k → lt a0 k = true → ∃ m b w a, NextKey lt (ops.map (·.1)) a0 b ∧ KeyAt t m b ∧
        IsLca T m v w ∧ KeyAt t w a ∧ EndsWith (fun n => lca2 lt n t a0 k) (.ok (some a)) := by
      intro k v hv ev hlt
      obtain ⟨m, b, w, a, hm, hb, hab, hleast, hL, ha, n0, hr⟩ := lca2_root ht ok.tree ok.srt hv ev ha0 hlt
      refine ⟨m, b, w, a, ⟨keys m hm b hb, hab, fun c hc hac => ?_⟩, keyAt_iff.mpr hb, hL, keyAt_iff.mpr ha, n0 + T.depth + 2, fun fuel hf => ?_⟩
      · obtain ⟨x, hx, ex⟩ := car.pos ((lastData_isSome _ _).mpr hc)
        exact hleast x hx c ex hac
      · obtain ⟨nv, env, hnv⟩ := keyAt_iff.mpr ev
        have e := hr fuel (by omega)
        dsimp only at e
        simp only [lca2, find _ hrT _ ha0 fuel (by omega), find v hv k ev fuel (by omega), ok_bind, getNode_ok en, hn, getNode_ok (at_some.mpr env), hnv, cmpKey]
        exact e
    by_cases hc : (j ≠ a0 ∧ k ≠ a0) ∨ lt j a0 = true ∨ lt k a0 = true
    · obtain ⟨w, a, hL, ha, hr⟩ := lca2_spec ht ok.tree ok.srt hu hv eu ev ha0 hc
      exact ⟨j, k, u, v, w, a, .inl ⟨hc, rfl, rfl⟩, keyAt_iff.mpr eu, keyAt_iff.mpr ev, hL, keyAt_iff.mpr ha, hr⟩
    · have above : ∀ k, k ≠ a0 → ¬ lt k a0 = true → lt a0 k = true := by
        intro k h1 h2
        rcases ht.tri a0 k with h | h | h
        · exact h
        · exact absurd h.symm h1
        · exact absurd h h2
      by_cases hja : j = a0
      · subst hja
        have hlt := above k (fun e => hnot ⟨rfl, e⟩) (fun e => hc (.inr (.inr e)))
        obtain ⟨m, b, w, a, hN, hm, hL, ha, hr⟩ := key k v hv ev hlt
        exact ⟨b, k, m, v, w, a, .inr (.inl ⟨rfl, hlt, hN, rfl⟩), hm, keyAt_iff.mpr ev, hL, ha, hr⟩
      · have hka : k = a0 := Classical.byContradiction fun h => hc (.inl ⟨hja, h⟩)
        subst hka
        have hlt := above j hja (fun e => hc (.inr (.inl e)))
        obtain ⟨m, b, w, a, hN, hm, hL, ha, n0, hr⟩ := key j u hu eu hlt
        refine ⟨j, b, u, m, w, a, .inr (.inr ⟨rfl, hlt, hN, rfl⟩), keyAt_iff.mpr eu, hm, ⟨hL.2.1, hL.1, fun x h1 h2 => hL.2.2 x h2 h1⟩, ha,
          n0 + T.depth + 2, fun fuel hf => ?_⟩
        dsimp only
        rw [lca2_symm (find _ hrT _ ha0 fuel (by omega)) (find u hu j eu fuel (by omega)) ha0 eu ha0]
        exact hr fuel (by omega)

/-- On the empty tree both algorithms raise `ValueError`. -/
theorem C76_empty {lt : κ → κ → Bool} (os : Bool) (j k : κ) :
    EndsWith (fun n => lca1 n (btEmpty os : BTree κ δ) j k) (.error .valueError) ∧
    EndsWith (fun n => lca2 lt n (btEmpty os : BTree κ δ) j k) (.error .valueError) := by
  constructor
  · refine ⟨9, fun n hn => ?_⟩
    obtain ⟨m, rfl⟩ : ∃ m, n = m + 9 := ⟨n - 9, by omega⟩
    rfl
  · refine ⟨9, fun n hn => ?_⟩
    obtain ⟨m, rfl⟩ : ∃ m, n = m + 9 := ⟨n - 9, by omega⟩
    rfl

/-- A concrete tree: 5, 2, 9, 7, 6, 8. Algorithm 2 on the root and 8 answers about 6 and 8; on the root twice it raises; on an absent key it raises. -/
example : (bstInserts (fun a b : Nat => decide (a < b)) 20 (btEmpty false)
      [(5, some 'a'), (2, some 'b'), (9, none), (7, none), (6, some 'c'), (8, none)]).bind (fun t =>
        .ok (lca2 (fun a b : Nat => decide (a < b)) 20 t 5 8, lca2 (fun a b : Nat => decide (a < b)) 20 t 5 5,
          lca2 (fun a b : Nat => decide (a < b)) 20 t 5 4)) = .ok (.ok (some 7), .error .typeError, .error .valueError) := by decide +kernel

end Props
