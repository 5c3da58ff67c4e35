import Verif.Model.SkipList
import Verif.Lemmas.Py
import Verif.Lemmas.Lists
import Verif.Spec

/-!
# Lemmas about skip lists
-/
namespace Props
open Py Model Spec
variable {κ δ : Type}

/-- The comparator `>=` of a strict order. -/
def geOf (lt : κ → κ → Bool) (a b : κ) : Bool := !lt a b

/-- The key of the node is smaller than `k`. -/
def Under (lt : κ → κ → Bool) (s : Skip κ δ) (k : κ) (x : Nat) : Bool := !skGe (geOf lt) (s.key x) k

structure SkLevel where
  h : Nat
  t : Nat
  body : List Nat

def SkLevel.ids (L : SkLevel) : List Nat := L.h :: L.t :: L.body

/-- The nodes are linked: `a`, then those of the list, then `t`. -/
def NextChain (next : Nat → Option Nat) (a : Nat) (xs : List Nat) (t : Nat) : Prop :=
  match xs with
  | [] => next a = some t
  | x :: xs => next a = some x ∧ NextChain next x xs t

theorem chain_congr {f g : Nat → Option Nat} : ∀ {xs : List Nat} {a t : Nat}, (∀ x ∈ a :: xs, g x = f x) → NextChain f a xs t → NextChain g a xs t
  | [], a, t, h, hc => by
    show g a = _
    rw [h a (by simp)]; exact hc
  | x :: xs, a, t, h, hc => ⟨by rw [h a (by simp)]; exact hc.1, chain_congr (fun y hy => h y (List.mem_cons_of_mem _ hy)) hc.2⟩

theorem chain_append {f : Nat → Option Nat} : ∀ {xs : List Nat} {a y t : Nat} {ys : List Nat},
    NextChain f a (xs ++ y :: ys) t ↔ NextChain f a xs y ∧ NextChain f y ys t
  | [], a, y, t, ys => Iff.rfl
  | x :: xs, a, y, t, ys => by
    show (f a = some x ∧ NextChain f x (xs ++ y :: ys) t) ↔ (f a = some x ∧ NextChain f x xs y) ∧ _
    rw [chain_append]; exact and_assoc.symm

theorem chain_last {f : Nat → Option Nat} : ∀ {xs : List Nat} {a t : Nat}, NextChain f a xs t → f (xs.getLastD a) = some t
  | [], _, _, h => h
  | [_], _, _, h => h.2
  | _ :: y :: ys, _, _, h => by
    have := chain_last (xs := y :: ys) h.2
    simpa [List.getLastD] using this

theorem getLastD_mem {xs : List Nat} {a : Nat} : xs.getLastD a ∈ a :: xs := by
  induction xs generalizing a with
  | nil => simp
  | cons x xs ih => rw [show (x :: xs).getLastD a = xs.getLastD x from by cases xs <;> simp [List.getLastD]]; exact List.mem_cons_of_mem _ ih

theorem skLastD_cons {xs : List Nat} {a x : Nat} : (x :: xs).getLastD a = xs.getLastD x := by cases xs <;> simp [List.getLastD]

theorem skLastD_append {xs ys : List Nat} {a x : Nat} : (xs ++ x :: ys).getLastD a = ys.getLastD x := by
  induction xs generalizing a with
  | nil => exact skLastD_cons
  | cons y xs ih => rw [List.cons_append, skLastD_cons, ih]

/-- Redirecting the last link of a chain. -/
theorem chain_redirect {f : Nat → Option Nat} : ∀ {xs : List Nat} {a t z : Nat}, (a :: xs).Nodup → NextChain f a xs t →
    NextChain (skSet f (xs.getLastD a) (some z)) a xs z
  | [], a, t, z, _, _ => by simp [NextChain, skSet, List.getLastD]
  | x :: xs, a, t, z, hn, h => by
    have hm : (x :: xs).getLastD a ∈ x :: xs := by rw [skLastD_cons]; exact getLastD_mem
    refine ⟨?_, ?_⟩
    · have : a ≠ (x :: xs).getLastD a := fun e => (List.nodup_cons.1 hn).1 (by rw [e]; exact hm)
      simp only [skSet, this, if_false]; exact h.1
    · rw [skLastD_cons]; exact chain_redirect (List.nodup_cons.1 hn).2 h.2

/-- A level whose nodes are linked and in order. -/
structure LevelOk (lt : κ → κ → Bool) (s : Skip κ δ) (L : SkLevel) : Prop where
  chain : NextChain s.next L.h L.body L.t
  low : s.key L.h = .low
  high : s.key L.t = .high
  keyed : ∀ x ∈ L.body, ∃ k, s.key x = .key k
  sorted : L.body.Pairwise fun x y => ∀ k, Under lt s k y = true → Under lt s k x = true

theorem LevelOk.congr {lt : κ → κ → Bool} {s s' : Skip κ δ} {L : SkLevel} (h : LevelOk lt s L)
    (hn : ∀ x ∈ L.h :: L.body, s'.next x = s.next x) (hk : ∀ x ∈ L.ids, s'.key x = s.key x) : LevelOk lt s' L where
  chain := chain_congr hn h.chain
  low := by rw [hk _ (by simp [SkLevel.ids])]; exact h.low
  high := by rw [hk _ (by simp [SkLevel.ids])]; exact h.high
  keyed x hx := by rw [hk x (by simp [SkLevel.ids, hx])]; exact h.keyed x hx
  sorted := by
    refine h.sorted.imp_of_mem ?_
    intro x y hx hy hxy k
    have ex : s'.key x = s.key x := hk x (by simp [SkLevel.ids, hx])
    have ey : s'.key y = s.key y := hk y (by simp [SkLevel.ids, hy])
    simp only [Under, ex, ey] at hxy ⊢
    exact hxy k

/-- The nodes of a level with keys below `k`, and the others. -/
def loOf (lt : κ → κ → Bool) (s : Skip κ δ) (k : κ) (L : SkLevel) : List Nat := L.body.filter (Under lt s k)
def hiOf (lt : κ → κ → Bool) (s : Skip κ δ) (k : κ) (L : SkLevel) : List Nat := L.body.filter (fun x => !Under lt s k x)
/-- The last node of the level whose key is below `k`. -/
def predOf (lt : κ → κ → Bool) (s : Skip κ δ) (k : κ) (L : SkLevel) : Nat := (loOf lt s k L).getLastD L.h

theorem filter_split {α : Type} (p : α → Bool) : ∀ {l : List α}, l.Pairwise (fun x y => p y = true → p x = true) →
    l = l.filter p ++ l.filter (fun x => !p x)
  | [], _ => rfl
  | x :: l, h => by
    have ih := filter_split p (List.pairwise_cons.1 h).2
    cases e : p x with
    | true =>
      rw [List.filter_cons_of_pos e, List.filter_cons_of_neg (by simp [e])]
      exact congrArg (x :: ·) ih
    | false =>
      have hall : ∀ y ∈ l, p y = false := fun y hy => by
        cases ey : p y with
        | false => rfl
        | true => have := (List.pairwise_cons.1 h).1 y hy ey; rw [e] at this; cases this
      have h1 : l.filter p = [] := List.filter_eq_nil_iff.2 (fun y hy => by simp [hall y hy])
      have h2 : l.filter (fun x => !p x) = l := List.filter_eq_self.2 (fun y hy => by simp [hall y hy])
      rw [List.filter_cons_of_neg (by simp [e]), List.filter_cons_of_pos (by simp [e]), h1, h2]; rfl

theorem LevelOk.split {lt : κ → κ → Bool} {s : Skip κ δ} {L : SkLevel} (h : LevelOk lt s L) (k : κ) :
    L.body = loOf lt s k L ++ hiOf lt s k L :=
  filter_split _ (h.sorted.imp fun hxy => hxy k)

theorem lo_under {lt : κ → κ → Bool} {s : Skip κ δ} {L : SkLevel} {k : κ} {x : Nat} (h : x ∈ loOf lt s k L) :
    x ∈ L.body ∧ Under lt s k x = true := List.mem_filter.1 h
theorem hi_over {lt : κ → κ → Bool} {s : Skip κ δ} {L : SkLevel} {k : κ} {x : Nat} (h : x ∈ hiOf lt s k L) :
    x ∈ L.body ∧ Under lt s k x = false := by simpa [hiOf] using h

/-- The node after the predecessor. -/
def succOf (lt : κ → κ → Bool) (s : Skip κ δ) (k : κ) (L : SkLevel) : Nat := (hiOf lt s k L).headD L.t

theorem LevelOk.lo_chain {lt : κ → κ → Bool} {s : Skip κ δ} {L : SkLevel} (h : LevelOk lt s L) (k : κ) :
    NextChain s.next L.h (loOf lt s k L) (succOf lt s k L) := by
  have hc := h.chain
  rw [h.split k] at hc
  unfold succOf
  cases e : hiOf lt s k L with
  | nil => rw [e, List.append_nil] at hc; exact hc
  | cons y ys => rw [e] at hc; exact (chain_append.1 hc).1

theorem LevelOk.succ_over {lt : κ → κ → Bool} {s : Skip κ δ} {L : SkLevel} (h : LevelOk lt s L) (k : κ) :
    Under lt s k (succOf lt s k L) = false := by
  unfold succOf
  cases e : hiOf lt s k L with
  | nil => simp [Under, h.high, skGe]
  | cons y ys => exact (hi_over (L := L) (by rw [e]; simp)).2

theorem LevelOk.pred_next {lt : κ → κ → Bool} {s : Skip κ δ} {L : SkLevel} (h : LevelOk lt s L) (k : κ) :
    s.next (predOf lt s k L) = some (succOf lt s k L) := chain_last (h.lo_chain k)

theorem pred_mem {lt : κ → κ → Bool} {s : Skip κ δ} {L : SkLevel} {k : κ} : predOf lt s k L ∈ L.h :: loOf lt s k L := getLastD_mem

theorem mem_ids {L : SkLevel} {x : Nat} : x ∈ L.ids ↔ x = L.h ∨ x = L.t ∨ x ∈ L.body := by simp [SkLevel.ids]

theorem pred_ids {lt : κ → κ → Bool} {s : Skip κ δ} {L : SkLevel} {k : κ} : predOf lt s k L ∈ L.h :: L.body := by
  rcases List.mem_cons.1 (pred_mem (lt := lt) (s := s) (L := L) (k := k)) with h | h
  · rw [h]; simp
  · exact List.mem_cons_of_mem _ (lo_under h).1

/-! ## The walk -/

theorem skWalk {lt : κ → κ → Bool} {s : Skip κ δ} {k : κ} : ∀ (lo : List Nat) (a z : Nat) (fuel : Nat) (path : List Nat),
    NextChain s.next a lo z → (∀ x ∈ lo, Under lt s k x = true) → Under lt s k z = false →
    skSearchLoop (geOf lt) s k (fuel + (lo.length + 1)) (some a) path
      = skSearchLoop (geOf lt) s k fuel (s.down (lo.getLastD a)) (path ++ [lo.getLastD a])
  | [], a, z, fuel, path, hc, _, hz => by
    have hn : s.next a = some z := hc
    have hz' : skGe (geOf lt) (s.key z) k = true := by simpa [Under] using hz
    simp [skSearchLoop, hn, skRef, hz', List.getLastD]
  | x :: lo, a, z, fuel, path, hc, hl, hz => by
    have hn : s.next a = some x := hc.1
    have hx : skGe (geOf lt) (s.key x) k = false := by simpa [Under] using hl x (by simp)
    have ih := skWalk lo x z fuel path hc.2 (fun y hy => hl y (List.mem_cons_of_mem _ hy)) hz
    rw [skLastD_cons, ← ih]
    simp only [List.length_cons]
    rw [show fuel + (lo.length + 1 + 1) = (fuel + (lo.length + 1)) + 1 by omega]
    conv => lhs; unfold skSearchLoop
    simp [hn, skRef, hx]

theorem chain_from {f : Nat → Option Nat} {lo : List Nat} {h z a : Nat} (hc : NextChain f h lo z) (ha : a ∈ h :: lo) :
    ∃ l2, NextChain f a l2 z ∧ l2.getLastD a = lo.getLastD h ∧ l2.length ≤ lo.length ∧ ∀ x ∈ l2, x ∈ lo := by
  rcases List.mem_cons.1 ha with e | hm
  · exact ⟨lo, by rw [e]; exact hc, by rw [e], Nat.le_refl _, fun _ hx => hx⟩
  · obtain ⟨l1, l2, e⟩ := List.append_of_mem hm
    subst e
    refine ⟨l2, (chain_append.1 hc).2, skLastD_append.symm, ?_, fun x hx => ?_⟩
    · simp only [List.length_append, List.length_cons]; omega
    · simp [hx]

/-- One level lies over the next. -/
structure OverLevel (s : Skip κ δ) (L M : SkLevel) : Prop where
  h : s.down L.h = some M.h
  t : s.down L.t = some M.t
  sub : (L.body.map s.down).Sublist (M.body.map some)
  key : ∀ x ∈ L.body, ∀ y, s.down x = some y → s.key y = s.key x

def Overs (s : Skip κ δ) : List SkLevel → Prop
  | [] => True
  | [_] => True
  | L :: M :: Ls => OverLevel s L M ∧ Overs s (M :: Ls)

/-- The lowest level. -/
structure Ground (s : Skip κ δ) (L : SkLevel) : Prop where
  h : s.down L.h = none
  t : s.down L.t = none
  body : ∀ x ∈ L.body, s.down x = none

theorem OverLevel.mem {s : Skip κ δ} {L M : SkLevel} (h : OverLevel s L M) {x : Nat} (hx : x ∈ L.body) : ∃ y ∈ M.body, s.down x = some y := by
  have : s.down x ∈ M.body.map some := h.sub.subset (List.mem_map_of_mem hx)
  obtain ⟨y, hy, e⟩ := List.mem_map.1 this
  exact ⟨y, hy, e.symm⟩

def nodesOf (Ls : List SkLevel) : List Nat := Ls.flatMap SkLevel.ids

/-- The number of iterations that `_search` needs at most. -/
def walkCost (Ls : List SkLevel) : Nat := (Ls.map fun L => L.body.length + 1).sum

theorem length_le_walkCost (Ls : List SkLevel) : Ls.length ≤ walkCost Ls := by
  induction Ls with
  | nil => simp [walkCost]
  | cons M Ms ih =>
    simp only [walkCost, List.length_cons, List.map_cons, List.sum_cons] at ih ⊢
    omega

theorem walkCost_le (Ls : List SkLevel) : walkCost Ls ≤ (nodesOf Ls).length := by
  induction Ls with
  | nil => simp [walkCost, nodesOf]
  | cons L Ls ih =>
    simp only [walkCost, nodesOf, List.map_cons, List.sum_cons, List.flatMap_cons, List.length_append, SkLevel.ids, List.length_cons] at ih ⊢
    omega

theorem skSearch_levels {lt : κ → κ → Bool} {s : Skip κ δ} {k : κ} : ∀ (Ls : List SkLevel) (L : SkLevel) (a : Nat) (fuel : Nat) (path : List Nat),
    (∀ M ∈ L :: Ls, LevelOk lt s M) → Overs s (L :: Ls) → (∀ M, (L :: Ls).getLast? = some M → Ground s M) →
    a ∈ L.h :: loOf lt s k L → walkCost (L :: Ls) < fuel →
    skSearchLoop (geOf lt) s k fuel (some a) path = .ok (path ++ (L :: Ls).map (predOf lt s k))
  | Ls, L, a, fuel, path, hok, hov, hg, ha, hf => by
    have hL := hok L (by simp)
    obtain ⟨l2, hc, hlast, hlen, hsub⟩ := chain_from (hL.lo_chain k) ha
    have hlo : (loOf lt s k L).length ≤ L.body.length := List.length_filter_le _ _
    have hw : walkCost (L :: Ls) = L.body.length + 1 + walkCost Ls := by simp [walkCost]
    obtain ⟨r, hr⟩ : ∃ r, fuel = r + (l2.length + 1) := ⟨fuel - (l2.length + 1), by omega⟩
    subst hr
    rw [skWalk l2 a _ r path hc (fun x hx => (lo_under (hsub x hx)).2) (hL.succ_over k), hlast]
    show skSearchLoop (geOf lt) s k r (s.down (predOf lt s k L)) (path ++ [predOf lt s k L]) = _
    cases Ls with
    | nil =>
      have hG := hg L rfl
      have hd : s.down (predOf lt s k L) = none := by
        rcases List.mem_cons.1 (pred_ids (lt := lt) (s := s) (L := L) (k := k)) with e | hm
        · rw [e]; exact hG.h
        · exact hG.body _ hm
      rw [hd]
      obtain ⟨q, rfl⟩ : ∃ q, r = q + 1 := ⟨r - 1, by omega⟩
      rfl
    | cons M Ls =>
      have hO := hov.1
      obtain ⟨b, hb, hbm⟩ : ∃ b, s.down (predOf lt s k L) = some b ∧ b ∈ M.h :: loOf lt s k M := by
        rcases List.mem_cons.1 (pred_mem (lt := lt) (s := s) (L := L) (k := k)) with e | hm
        · exact ⟨M.h, by rw [e]; exact hO.h, by simp⟩
        · obtain ⟨hm1, hm2⟩ := lo_under hm
          obtain ⟨y, hy, e⟩ := hO.mem hm1
          refine ⟨y, e, List.mem_cons_of_mem _ (List.mem_filter.2 ⟨hy, ?_⟩)⟩
          simpa [Under, hO.key _ hm1 y e] using hm2
      rw [hb, skSearch_levels Ls M b r _ (fun N hN => hok N (List.mem_cons_of_mem _ hN)) hov.2
        (fun N hN => hg N (by simpa using hN)) hbm (by omega)]
      simp


/-! ## The representation -/

def bottomBody (Ls : List SkLevel) : List Nat :=
  match Ls.getLast? with
  | some L => L.body
  | none => []

structure SkOk (lt : κ → κ → Bool) (s : Skip κ δ) (Ls : List SkLevel) (l : List (κ × Option δ)) : Prop where
  head : s.head = Ls.head?.map SkLevel.h
  tail : s.tail = Ls.head?.map SkLevel.t
  levels : s.levels = Ls.length
  ok : ∀ L ∈ Ls, LevelOk lt s L
  overs : Overs s Ls
  ground : ∀ L, Ls.getLast? = some L → Ground s L
  nodup : (nodesOf Ls).Nodup
  fresh : ∀ x ∈ nodesOf Ls, x < s.fresh
  content : (bottomBody Ls).map (fun x => (s.key x, s.data x)) = l.map (fun e => (SKey.key e.1, e.2))

theorem overs_congr {s s' : Skip κ δ} : ∀ {Ls : List SkLevel}, Overs s Ls → (∀ x ∈ nodesOf Ls, s'.down x = s.down x) →
    (∀ x ∈ nodesOf Ls, s'.key x = s.key x) → Overs s' Ls
  | [], _, _, _ => trivial
  | [_], _, _, _ => trivial
  | L :: M :: Ls, h, hd, hk => by
    have mL : ∀ x ∈ L.ids, x ∈ nodesOf (L :: M :: Ls) := fun x hx => by simp [nodesOf, hx]
    have mM : ∀ x ∈ M.ids, x ∈ nodesOf (L :: M :: Ls) := fun x hx => by simp [nodesOf, hx]
    refine ⟨⟨?_, ?_, ?_, ?_⟩, overs_congr h.2 (fun x hx => hd x ?_) (fun x hx => hk x ?_)⟩
    · rw [hd _ (mL _ (by simp [SkLevel.ids]))]; exact h.1.h
    · rw [hd _ (mL _ (by simp [SkLevel.ids]))]; exact h.1.t
    · rw [List.map_congr_left (fun x hx => hd x (mL x (by simp [SkLevel.ids, hx])))]; exact h.1.sub
    · intro x hx y hy
      rw [hd x (mL x (by simp [SkLevel.ids, hx]))] at hy
      obtain ⟨z, hz, e⟩ := h.1.mem hx
      rw [hy] at e; cases e
      rw [hk y (mM y (by simp [SkLevel.ids, hz])), hk x (mL x (by simp [SkLevel.ids, hx]))]
      exact h.1.key x hx y hy
    · simp only [nodesOf, List.flatMap_cons, List.mem_append] at hx ⊢; exact .inr hx
    · simp only [nodesOf, List.flatMap_cons, List.mem_append] at hx ⊢; exact .inr hx

theorem overs_append {s : Skip κ δ} {L : SkLevel} {B : List SkLevel} : ∀ {A : List SkLevel},
    Overs s (A ++ L :: B) ↔ Overs s (A ++ [L]) ∧ Overs s (L :: B)
  | [] => by simp [Overs]
  | [M] => by simp [Overs]
  | M :: N :: A => by
    have ih := overs_append (s := s) (L := L) (B := B) (A := N :: A)
    simp only [List.cons_append] at ih ⊢
    show OverLevel s M N ∧ Overs s (N :: (A ++ L :: B)) ↔ (OverLevel s M N ∧ Overs s (N :: (A ++ [L]))) ∧ _
    rw [ih]; exact and_assoc.symm

theorem Overs.of_snoc {s : Skip κ δ} {L : SkLevel} : ∀ {A : List SkLevel}, Overs s (A ++ [L]) → Overs s A
  | [], _ => trivial
  | [_], _ => trivial
  | _ :: N :: A, h => ⟨h.1, Overs.of_snoc (A := N :: A) h.2⟩

/-- The level below may get more nodes. -/
theorem overs_grow {s : Skip κ δ} {L L' : SkLevel} (eh : L'.h = L.h) (et : L'.t = L.t) (hs : L.body.Sublist L'.body) :
    ∀ {A : List SkLevel}, Overs s (A ++ [L]) → Overs s (A ++ [L'])
  | [], _ => trivial
  | [M], h => ⟨⟨by rw [eh]; exact h.1.h, by rw [et]; exact h.1.t, h.1.sub.trans (hs.map _), h.1.key⟩, trivial⟩
  | M :: N :: A, h => ⟨h.1, overs_grow (A := N :: A) eh et hs h.2⟩

theorem under_key {lt : κ → κ → Bool} {s : Skip κ δ} {k a : κ} {x : Nat} (h : s.key x = .key a) : Under lt s k x = lt a k := by
  simp [Under, h, skGe, geOf]

/-- A new node with key `k` after `prev`. -/
def skHang (s : Skip κ δ) (k : κ) (d : Option δ) (down : Option Nat) (prev : Nat) : Skip κ δ :=
  { skAlloc s (.key k) d (s.next prev) down with
    next := skSet (skSet s.next s.fresh (s.next prev)) prev (some s.fresh) }

section hang
variable {s : Skip κ δ} {k : κ} {d : Option δ} {dn : Option Nat} {prev : Nat}

theorem hang_key {x : Nat} (h : x < s.fresh) : (skHang s k d dn prev).key x = s.key x := by
  have : x ≠ s.fresh := by omega
  simp [skHang, skAlloc, skSet, this]
theorem hang_data {x : Nat} (h : x < s.fresh) : (skHang s k d dn prev).data x = s.data x := by
  have : x ≠ s.fresh := by omega
  simp [skHang, skAlloc, skSet, this]
theorem hang_down {x : Nat} (h : x < s.fresh) : (skHang s k d dn prev).down x = s.down x := by
  have : x ≠ s.fresh := by omega
  simp [skHang, skAlloc, skSet, this]
theorem hang_next {x : Nat} (h : x < s.fresh) (hp : x ≠ prev) : (skHang s k d dn prev).next x = s.next x := by
  have : x ≠ s.fresh := by omega
  simp [skHang, skSet, this, hp]
theorem hang_new_key : (skHang s k d dn prev).key s.fresh = .key k := by simp [skHang, skAlloc, skSet]
theorem hang_new_data : (skHang s k d dn prev).data s.fresh = d := by simp [skHang, skAlloc, skSet]
theorem hang_new_down : (skHang s k d dn prev).down s.fresh = dn := by simp [skHang, skAlloc, skSet]
theorem hang_fresh : (skHang s k d dn prev).fresh = s.fresh + 1 := rfl
end hang

theorem mem_nodesOf {Ls : List SkLevel} {x : Nat} : x ∈ nodesOf Ls ↔ ∃ L ∈ Ls, x ∈ L.ids := by simp [nodesOf]

theorem nodesOf_append {A B : List SkLevel} : nodesOf (A ++ B) = nodesOf A ++ nodesOf B := by simp [nodesOf]
theorem nodesOf_cons {L : SkLevel} {B : List SkLevel} : nodesOf (L :: B) = L.ids ++ nodesOf B := by simp [nodesOf]

/-- The level with the new node. -/
def withNode (lt : κ → κ → Bool) (s : Skip κ δ) (k : κ) (L : SkLevel) : SkLevel :=
  ⟨L.h, L.t, loOf lt s k L ++ s.fresh :: hiOf lt s k L⟩

theorem nodup_apart {A B : List SkLevel} {L M : SkLevel} (hn : (nodesOf (A ++ L :: B)).Nodup) (hM : M ∈ A ++ B) {x : Nat} (hx : x ∈ L.ids) :
    x ∉ M.ids := by
  intro hxM
  rw [nodesOf_append, nodesOf_cons, List.nodup_iff_count] at hn
  have := hn x
  simp only [List.count_append] at this
  have h1 := List.count_pos_iff.2 hx
  rcases List.mem_append.1 hM with h | h
  · have h2 : 0 < (nodesOf A).count x := List.count_pos_iff.2 (mem_nodesOf.2 ⟨M, h, hxM⟩)
    omega
  · have h2 : 0 < (nodesOf B).count x := List.count_pos_iff.2 (mem_nodesOf.2 ⟨M, h, hxM⟩)
    omega

theorem nodup_level {A B : List SkLevel} {L : SkLevel} (hn : (nodesOf (A ++ L :: B)).Nodup) : L.ids.Nodup := by
  rw [nodesOf_append, nodesOf_cons] at hn
  exact (List.nodup_append.1 (List.nodup_append.1 hn).2.1).1

theorem withNode_perm {lt : κ → κ → Bool} {s : Skip κ δ} {k : κ} {L : SkLevel} (h : LevelOk lt s L) :
    (withNode lt s k L).ids.Perm (s.fresh :: L.ids) := by
  have e : (withNode lt s k L).ids = L.h :: L.t :: (loOf lt s k L ++ s.fresh :: hiOf lt s k L) := rfl
  rw [e, show L.ids = L.h :: L.t :: (loOf lt s k L ++ hiOf lt s k L) by rw [← h.split k]; rfl]
  refine List.Perm.trans (List.Perm.cons _ (List.Perm.cons _ List.perm_middle)) ?_
  exact ((List.Perm.swap _ _ _).cons _).trans (List.Perm.swap _ _ _)

section
variable {lt : κ → κ → Bool} {s : Skip κ δ} {A B : List SkLevel} {L : SkLevel} {k : κ} {d : Option δ} {dn : Option Nat}

theorem hang_nodup (hok : LevelOk lt s L) (hn : (nodesOf (A ++ L :: B)).Nodup) (hf : ∀ x ∈ nodesOf (A ++ L :: B), x < s.fresh) :
    (nodesOf (A ++ withNode lt s k L :: B)).Nodup ∧ ∀ x ∈ nodesOf (A ++ withNode lt s k L :: B), x < s.fresh + 1 := by
  have hp : (nodesOf (A ++ withNode lt s k L :: B)).Perm (s.fresh :: nodesOf (A ++ L :: B)) := by
    simp only [nodesOf_append, nodesOf_cons]
    refine (((withNode_perm hok).append_right _).append_left _).trans ?_
    exact List.perm_middle
  refine ⟨hp.nodup_iff.2 (List.nodup_cons.2 ⟨fun h => Nat.lt_irrefl _ (hf _ h), hn⟩), fun x hx => ?_⟩
  rcases List.mem_cons.1 (hp.mem_iff.1 hx) with e | hx
  · omega
  · have := hf x hx; omega

theorem hang_ok (ho : StrictTotal fun a b => lt a b = true) (hok : ∀ M ∈ A ++ L :: B, LevelOk lt s M)
    (hn : (nodesOf (A ++ L :: B)).Nodup) (hf : ∀ x ∈ nodesOf (A ++ L :: B), x < s.fresh) :
    ∀ M ∈ A ++ withNode lt s k L :: B, LevelOk lt (skHang s k d dn (predOf lt s k L)) M := by
  have hL := hok L (by simp)
  have hpm : predOf lt s k L ∈ L.ids := by
    have := pred_ids (lt := lt) (s := s) (L := L) (k := k)
    simp only [List.mem_cons] at this
    exact mem_ids.2 (by rcases this with h | h <;> simp [h])
  have hLf : ∀ x ∈ L.ids, x < s.fresh := fun x hx => hf x (mem_nodesOf.2 ⟨L, by simp, hx⟩)
  intro M hM
  have hM' : M = withNode lt s k L ∨ M ∈ A ++ B := by
    simp only [List.mem_append, List.mem_cons] at hM ⊢; rcases hM with h | h | h <;> simp [h]
  rcases hM' with rfl | hM'
  · have hnd := nodup_level hn
    have hlo : ∀ x ∈ loOf lt s k L, x < s.fresh := fun x hx => hLf x (mem_ids.2 (.inr (.inr (lo_under hx).1)))
    have hhi : ∀ x ∈ hiOf lt s k L, x < s.fresh := fun x hx => hLf x (mem_ids.2 (.inr (.inr (hi_over hx).1)))
    have hb : ∀ x ∈ L.body, x < s.fresh := fun x hx => hLf x (mem_ids.2 (.inr (.inr hx)))
    have hhf := hLf L.h (by simp [SkLevel.ids])
    have hnl : (L.h :: loOf lt s k L).Nodup := by
      refine List.Nodup.sublist ?_ hnd
      exact List.Sublist.cons_cons _ (List.Sublist.cons _ List.filter_sublist)
    have hpf : predOf lt s k L ≠ s.fresh := by have := hLf _ hpm; omega
    have hhip : ∀ x ∈ hiOf lt s k L, x ≠ predOf lt s k L := by
      intro x hx e
      rcases List.mem_cons.1 (pred_mem (lt := lt) (s := s) (L := L) (k := k)) with h | h
      · rw [e, h] at hx
        have := (hi_over hx).1
        have hnd' := hnd
        simp only [SkLevel.ids, List.nodup_cons, List.mem_cons, not_or] at hnd'
        exact hnd'.1.2 this
      · rw [← e] at h
        have := (lo_under h).2; rw [(hi_over hx).2] at this; cases this
    have hkey : ∀ x ∈ L.body, (skHang s k d dn (predOf lt s k L)).key x = s.key x := fun x hx => hang_key (hb x hx)
    have hund : ∀ x ∈ L.body, ∀ j, Under lt (skHang s k d dn (predOf lt s k L)) j x = Under lt s j x := fun x hx j => by
      simp only [Under, hkey x hx]
    have hnew : ∀ j, Under lt (skHang s k d dn (predOf lt s k L)) j s.fresh = lt k j := fun j => under_key hang_new_key
    refine ⟨?_, ?_, ?_, ?_, ?_⟩
    · show NextChain _ L.h (loOf lt s k L ++ s.fresh :: hiOf lt s k L) L.t
      refine chain_append.2 ⟨?_, ?_⟩
      · refine chain_congr (f := skSet s.next (predOf lt s k L) (some s.fresh)) ?_ (chain_redirect hnl (hL.lo_chain k))
        intro x hx
        have hxf : x ≠ s.fresh := by
          rcases List.mem_cons.1 hx with e | h
          · omega
          · have := hlo x h; omega
        simp [skHang, skSet, hxf]
      · have hnx : (skHang s k d dn (predOf lt s k L)).next s.fresh = some (succOf lt s k L) := by
          have hpf' : s.fresh ≠ predOf lt s k L := fun e => hpf e.symm
          simp [skHang, skSet, hpf', hL.pred_next k]
        have hc := hL.chain
        rw [hL.split k] at hc
        cases e : hiOf lt s k L with
        | nil => rw [show succOf lt s k L = L.t by simp [succOf, e]] at hnx; exact hnx
        | cons y ys =>
          rw [e] at hc
          rw [show succOf lt s k L = y by simp [succOf, e]] at hnx
          refine ⟨hnx, chain_congr ?_ (chain_append.1 hc).2⟩
          intro x hx
          rw [← e] at hx
          exact hang_next (hhi x hx) (hhip x hx)
    · show _ = _
      rw [show (withNode lt s k L).h = L.h from rfl, hang_key hhf]; exact hL.low
    · rw [show (withNode lt s k L).t = L.t from rfl, hang_key (hLf _ (by simp [SkLevel.ids]))]; exact hL.high
    · intro x hx
      have : x ∈ loOf lt s k L ∨ x = s.fresh ∨ x ∈ hiOf lt s k L := by simpa [withNode] using hx
      rcases this with h | h | h
      · rw [hkey x (lo_under h).1]; exact hL.keyed x (lo_under h).1
      · exact ⟨k, by rw [h]; exact hang_new_key⟩
      · rw [hkey x (hi_over h).1]; exact hL.keyed x (hi_over h).1
    · have hs := hL.sorted
      rw [hL.split k] at hs
      rw [List.pairwise_append] at hs
      show List.Pairwise _ (loOf lt s k L ++ s.fresh :: hiOf lt s k L)
      rw [List.pairwise_append]
      refine ⟨?_, List.pairwise_cons.2 ⟨?_, ?_⟩, ?_⟩
      · refine hs.1.imp_of_mem ?_
        intro x y hx hy h j
        rw [hund x (lo_under hx).1, hund y (lo_under hy).1]; exact h j
      · intro y hy j hj
        rw [hund y (hi_over hy).1] at hj
        obtain ⟨b, hb'⟩ := hL.keyed y (hi_over hy).1
        have h1 := (hi_over hy).2
        rw [under_key hb'] at h1 hj
        rw [hnew]
        rcases ho.tri k b with h | h | h
        · exact ho.trans _ _ _ h hj
        · rw [h]; exact hj
        · have h' : lt b k = true := h
          rw [h1] at h'; cases h'
      · refine hs.2.1.imp_of_mem ?_
        intro x y hx hy h j
        rw [hund x (hi_over hx).1, hund y (hi_over hy).1]; exact h j
      · intro x hx y hy j hj
        rw [hund x (lo_under hx).1]
        rcases List.mem_cons.1 hy with e | hy
        · rw [e, hnew] at hj
          obtain ⟨a, ha⟩ := hL.keyed x (lo_under hx).1
          have h1 := (lo_under hx).2
          rw [under_key ha] at h1 ⊢
          exact ho.trans _ _ _ h1 hj
        · rw [hund y (hi_over hy).1] at hj
          exact hs.2.2 x hx y hy j hj
  · have hMm : M ∈ A ++ L :: B := by
      simp only [List.mem_append, List.mem_cons] at hM' ⊢; rcases hM' with h | h <;> simp [h]
    have hMf : ∀ x ∈ M.ids, x < s.fresh := fun x hx => hf x (mem_nodesOf.2 ⟨M, hMm, hx⟩)
    refine (hok M hMm).congr ?_ (fun x hx => hang_key (hMf x hx))
    intro x hx
    have hxi : x ∈ M.ids := mem_ids.2 (by rcases List.mem_cons.1 hx with h | h <;> simp [h])
    exact hang_next (hMf x hxi) (fun e => nodup_apart hn hM' hpm (by rw [← e]; exact hxi))
end


theorem overs_hang {s : Skip κ δ} {Ls : List SkLevel} {k : κ} {d : Option δ} {dn : Option Nat} {prev : Nat} (h : Overs s Ls)
    (hf : ∀ x ∈ nodesOf Ls, x < s.fresh) : Overs (skHang s k d dn prev) Ls :=
  overs_congr h (fun x hx => hang_down (hf x hx)) (fun x hx => hang_key (hf x hx))

theorem ground_congr {s s' : Skip κ δ} {L : SkLevel} (h : Ground s L) (hd : ∀ x ∈ L.ids, s'.down x = s.down x) : Ground s' L where
  h := by rw [hd _ (by simp [SkLevel.ids])]; exact h.h
  t := by rw [hd _ (by simp [SkLevel.ids])]; exact h.t
  body x hx := by rw [hd _ (by simp [SkLevel.ids, hx])]; exact h.body x hx

theorem sublist_skip {α : Type} {a b : List α} {x : α} (h : a.Sublist (x :: b)) (hx : x ∉ a) : a.Sublist b := by
  cases h with
  | cons _ h => exact h
  | cons_cons _ h => exact absurd (by simp) hx

theorem filter_ids {lt : κ → κ → Bool} {s : Skip κ δ} {k : κ} {xs ys : List Nat} (h : (xs.map s.down).Sublist (ys.map some))
    (hk : ∀ x ∈ xs, ∀ y, s.down x = some y → s.key y = s.key x) (p : SKey κ → Bool) :
    ((xs.filter fun x => p (s.key x)).map s.down).Sublist ((ys.filter fun x => p (s.key x)).map some) := by
  have e1 : (xs.filter fun x => p (s.key x)).map s.down = (xs.map s.down).filter (fun o => match o with | some y => p (s.key y) | none => true) := by
    rw [List.filter_map]
    congr 1
    refine List.filter_congr ?_
    intro x hx
    have : s.down x ∈ ys.map some := h.subset (List.mem_map_of_mem hx)
    obtain ⟨y, _, e⟩ := List.mem_map.1 this
    simp only [Function.comp, ← e]
    rw [hk x hx y e.symm]
  have e2 : (ys.filter fun x => p (s.key x)).map some = (ys.map some).filter (fun o => match o with | some y => p (s.key y) | none => true) := by
    rw [List.filter_map]; rfl
  rw [e1, e2]
  exact h.filter _

/-- The state of the loop of `insert`: the levels of `C :: B` have the new node, those of `A` not yet. -/
structure Raising (lt : κ → κ → Bool) (s : Skip κ δ) (k : κ) (path : List Nat) (below : Nat) (A : List SkLevel) (C : SkLevel) (B : List SkLevel)
    (l : List (κ × Option δ)) : Prop where
  inv : SkOk lt s (A ++ C :: B) l
  split : ∃ lo hi, C.body = lo ++ below :: hi ∧ (∀ x ∈ lo, Under lt s k x = true) ∧ (∀ x ∈ hi, Under lt s k x = false) ∧
    Overs s (A ++ [⟨C.h, C.t, lo ++ hi⟩])
  key : s.key below = .key k
  onPath : ∀ (i : Nat) (M : SkLevel), A[i]? = some M → path[i]? = some (predOf lt s k M)

theorem getLast_cons_append {α : Type} {A B : List α} {a b : α} : (A ++ a :: b :: B).getLast? = (b :: B).getLast? := by
  rw [List.getLast?_append, List.getLast?_cons_cons]
  cases e : (b :: B).getLast? with
  | none => simp at e
  | some x => rfl

theorem bottomBody_cons {A B : List SkLevel} {L C : SkLevel} : bottomBody (A ++ L :: C :: B) = bottomBody (C :: B) := by
  simp only [bottomBody, getLast_cons_append]

theorem bottomBody_mem {Ls : List SkLevel} {x : Nat} (h : x ∈ bottomBody Ls) : x ∈ nodesOf Ls := by
  unfold bottomBody at h
  cases e : Ls.getLast? with
  | none => rw [e] at h; cases h
  | some L => rw [e] at h; exact mem_nodesOf.2 ⟨L, List.mem_of_getLast? e, mem_ids.2 (.inr (.inr h))⟩

theorem head?_withNode {lt : κ → κ → Bool} {s : Skip κ δ} {k : κ} {A B : List SkLevel} {L : SkLevel} :
    (A ++ withNode lt s k L :: B).head?.map SkLevel.h = (A ++ L :: B).head?.map SkLevel.h ∧
    (A ++ withNode lt s k L :: B).head?.map SkLevel.t = (A ++ L :: B).head?.map SkLevel.t := by
  cases A <;> exact ⟨rfl, rfl⟩

/-- One round of the loop of `insert`. -/
theorem raise_step {lt : κ → κ → Bool} {s : Skip κ δ} {k : κ} {path : List Nat} {below : Nat} {A : List SkLevel} {L C : SkLevel} {B : List SkLevel}
    {l : List (κ × Option δ)} (ho : StrictTotal fun a b => lt a b = true) (h : Raising lt s k path below (A ++ [L]) C B l) :
    Raising lt (skHang s k none (some below) (predOf lt s k L)) k path s.fresh A (withNode lt s k L) (C :: B) l := by
  have hi := h.inv
  have eA : A ++ [L] ++ C :: B = A ++ L :: C :: B := by simp
  rw [eA] at hi
  obtain ⟨lo, hi2, eC, hlo, hhi, hov⟩ := h.split
  have hL := hi.ok L (by simp)
  have hbf : ∀ M ∈ A ++ L :: C :: B, ∀ x ∈ M.ids, x < s.fresh := fun M hM x hx => hi.fresh x (mem_nodesOf.2 ⟨M, hM, hx⟩)
  have hbelow : below < s.fresh := hbf C (by simp) below (mem_ids.2 (.inr (.inr (by rw [eC]; simp))))
  have eA2 : A ++ [L] ++ [⟨C.h, C.t, lo ++ hi2⟩] = A ++ L :: [⟨C.h, C.t, lo ++ hi2⟩] := by simp
  rw [eA2] at hov
  obtain ⟨hovA, hovL⟩ := overs_append.1 hov
  have hO : OverLevel s L ⟨C.h, C.t, lo ++ hi2⟩ := hovL.1
  have hovC : Overs s (C :: B) := (overs_append.1 hi.overs).2.2
  have hfresh1 : ∀ x ∈ nodesOf (A ++ [L]), x < s.fresh := fun x hx => by
    obtain ⟨M, hM, hx⟩ := mem_nodesOf.1 hx
    exact hbf M (by simp only [List.mem_append, List.mem_cons, List.not_mem_nil, or_false] at hM ⊢; rcases hM with h | h <;> simp [h]) x hx
  have hfresh2 : ∀ x ∈ nodesOf (C :: B), x < s.fresh := fun x hx => by
    obtain ⟨M, hM, hx⟩ := mem_nodesOf.1 hx
    exact hbf M (by simp only [List.mem_append, List.mem_cons] at hM ⊢; rcases hM with h | h <;> simp [h]) x hx
  have hnd := hang_nodup (k := k) hL hi.nodup hi.fresh
  -- the new level lies over `C`
  have hsub : ((withNode lt s k L).body.map (skHang s k none (some below) (predOf lt s k L)).down).Sublist (C.body.map some) := by
    have f1 : ((loOf lt s k L).map s.down).Sublist (lo.map some) := by
      have := filter_ids (lt := lt) (k := k) hO.sub hO.key (fun a => !skGe (geOf lt) a k)
      refine this.trans (List.Sublist.map _ ?_)
      show ((lo ++ hi2).filter (Under lt s k)).Sublist lo
      rw [List.filter_append, List.filter_eq_self.2 (fun x hx => hlo x hx), List.filter_eq_nil_iff.2 (fun x hx => by simp [hhi x hx]), List.append_nil]
      exact List.Sublist.refl _
    have f2 : ((hiOf lt s k L).map s.down).Sublist (hi2.map some) := by
      have := filter_ids (lt := lt) (k := k) hO.sub hO.key (fun a => !!skGe (geOf lt) a k)
      refine List.Sublist.trans ?_ (this.trans (List.Sublist.map _ ?_))
      · exact List.Sublist.refl _
      · show ((lo ++ hi2).filter (fun x => !Under lt s k x)).Sublist hi2
        have e1 : hi2.filter (fun x => !Under lt s k x) = hi2 := List.filter_eq_self.2 (fun x hx => by simp [hhi x hx])
        have e2 : lo.filter (fun x => !Under lt s k x) = [] := List.filter_eq_nil_iff.2 (fun x hx => by simp [hlo x hx])
        rw [List.filter_append, e1, e2, List.nil_append]
        exact List.Sublist.refl _
    show ((loOf lt s k L ++ s.fresh :: hiOf lt s k L).map _).Sublist _
    rw [eC, List.map_append, List.map_append, List.map_cons, List.map_cons, hang_new_down]
    refine List.Sublist.append ?_ (List.Sublist.cons_cons _ ?_)
    · rw [List.map_congr_left (g := s.down) (fun x hx => hang_down (hbf L (by simp) x (mem_ids.2 (.inr (.inr (lo_under hx).1)))))]
      exact f1
    · rw [List.map_congr_left (g := s.down) (fun x hx => hang_down (hbf L (by simp) x (mem_ids.2 (.inr (.inr (hi_over hx).1)))))]
      exact f2
  have hLs : L.body.Sublist (withNode lt s k L).body := by
    conv => lhs; rw [hL.split k]
    exact List.Sublist.append (List.Sublist.refl _) (List.Sublist.cons _ (List.Sublist.refl _))
  have hOver : OverLevel (skHang s k none (some below) (predOf lt s k L)) (withNode lt s k L) C := by
    refine ⟨?_, ?_, hsub, ?_⟩
    · show _ = _
      rw [show (withNode lt s k L).h = L.h from rfl, hang_down (hbf L (by simp) _ (by simp [SkLevel.ids]))]; exact hO.h
    · rw [show (withNode lt s k L).t = L.t from rfl, hang_down (hbf L (by simp) _ (by simp [SkLevel.ids]))]; exact hO.t
    · intro x hx y hy
      have hx' : x = s.fresh ∨ x ∈ L.body := by
        rw [hL.split k]
        simp only [withNode, List.mem_append, List.mem_cons] at hx ⊢
        rcases hx with h | h | h <;> simp [h]
      rcases hx' with e | hx'
      · rw [e, hang_new_down] at hy; cases hy
        rw [e, hang_new_key, hang_key hbelow]; exact h.key
      · have hxf := hbf L (by simp) x (mem_ids.2 (.inr (.inr hx')))
        rw [hang_down hxf] at hy
        obtain ⟨z, hz, e⟩ := hO.mem hx'
        rw [hy] at e; cases e
        have hyf : y < s.fresh := hbf C (by simp) y (mem_ids.2 (.inr (.inr (by
          rw [eC]; simp only [List.mem_append, List.mem_cons] at hz ⊢; rcases hz with h | h <;> simp [h]))))
        rw [hang_key hxf, hang_key hyf]; exact hO.key x hx' y hy
  have hovA' : Overs (skHang s k none (some below) (predOf lt s k L)) (A ++ [L]) := overs_hang hovA hfresh1
  refine ⟨⟨?_, ?_, ?_, hang_ok ho hi.ok hi.nodup hi.fresh, ?_, ?_, hnd.1, ?_, ?_⟩, ?_, hang_new_key, ?_⟩
  · rw [head?_withNode.1]; exact hi.head
  · rw [head?_withNode.2]; exact hi.tail
  · show s.levels = _
    rw [hi.levels]; simp
  · refine overs_append.2 ⟨overs_grow (L := L) (L' := withNode lt s k L) rfl rfl hLs hovA', hOver, overs_hang hovC hfresh2⟩
  · intro M hM
    rw [getLast_cons_append] at hM
    refine ground_congr (hi.ground M (by rw [getLast_cons_append]; exact hM)) (fun x hx => hang_down (hfresh2 x (mem_nodesOf.2 ⟨M, List.mem_of_getLast? hM, hx⟩)))
  · exact hnd.2
  · rw [bottomBody_cons]
    have := hi.content
    rw [bottomBody_cons] at this
    rw [← this]
    refine List.map_congr_left ?_
    intro x hx
    have hxf := hfresh2 x (bottomBody_mem hx)
    rw [hang_key hxf, hang_data hxf]
  · refine ⟨loOf lt s k L, hiOf lt s k L, rfl, ?_, ?_, ?_⟩
    · intro x hx
      have := (lo_under hx).2
      simpa [Under, hang_key (hbf L (by simp) x (mem_ids.2 (.inr (.inr (lo_under hx).1))))] using this
    · intro x hx
      have := (hi_over hx).2
      simpa [Under, hang_key (hbf L (by simp) x (mem_ids.2 (.inr (.inr (hi_over hx).1))))] using this
    · show Overs _ (A ++ [⟨L.h, L.t, loOf lt s k L ++ hiOf lt s k L⟩])
      rw [← hL.split k]; exact hovA'
  · intro i M hM
    have hMA : M ∈ A := List.mem_of_getElem? hM
    rw [h.onPath i M (by
      rw [List.getElem?_append_left]
      · exact hM
      · obtain ⟨hh, _⟩ := List.getElem?_eq_some_iff.1 hM; exact hh)]
    have : loOf lt (skHang s k none (some below) (predOf lt s k L)) k M = loOf lt s k M := by
      refine List.filter_congr ?_
      intro x hx
      simp [Under, hang_key (hbf M (by simp [hMA]) x (mem_ids.2 (.inr (.inr hx))))]
    show some ((loOf lt s k M).getLastD M.h) = some ((loOf lt (skHang s k none (some below) (predOf lt s k L)) k M).getLastD M.h)
    rw [this]


theorem skHang_def (s : Skip κ δ) (k : κ) (d : Option δ) (dn : Option Nat) (prev : Nat) :
    ({ skAlloc s (.key k) d (s.next prev) dn with
        next := skSet (skAlloc s (.key k) d (s.next prev) dn).next prev (some s.fresh) } : Skip κ δ) = skHang s k d dn prev := rfl

section addLevel
variable {s : Skip κ δ}
theorem add_key {x : Nat} (h : x < s.fresh) : (skAddLevel s).key x = s.key x := by
  have h1 : x ≠ s.fresh := by omega
  have h2 : x ≠ s.fresh + 1 := by omega
  simp [skAddLevel, skAlloc, skSet, h1, h2]
theorem add_data {x : Nat} (h : x < s.fresh) : (skAddLevel s).data x = s.data x := by
  have h1 : x ≠ s.fresh := by omega
  have h2 : x ≠ s.fresh + 1 := by omega
  simp [skAddLevel, skAlloc, skSet, h1, h2]
theorem add_next {x : Nat} (h : x < s.fresh) : (skAddLevel s).next x = s.next x := by
  have h1 : x ≠ s.fresh := by omega
  have h2 : x ≠ s.fresh + 1 := by omega
  simp [skAddLevel, skAlloc, skSet, h1, h2]
theorem add_down {x : Nat} (h : x < s.fresh) : (skAddLevel s).down x = s.down x := by
  have h1 : x ≠ s.fresh := by omega
  have h2 : x ≠ s.fresh + 1 := by omega
  simp [skAddLevel, skAlloc, skSet, h1, h2]
end addLevel

/-- The new top level. -/
def topLevel (s : Skip κ δ) : SkLevel := ⟨s.fresh + 1, s.fresh, []⟩

theorem topLevel_ok {lt : κ → κ → Bool} {s : Skip κ δ} : LevelOk lt (skAddLevel s) (topLevel s) where
  chain := by simp [topLevel, NextChain, skAddLevel, skAlloc, skSet]
  low := by simp [topLevel, skAddLevel, skAlloc, skSet]
  high := by simp [topLevel, skAddLevel, skAlloc, skSet]
  keyed := nofun
  sorted := List.Pairwise.nil

theorem addLevel_ok {lt : κ → κ → Bool} {s : Skip κ δ} {Ls : List SkLevel} {l : List (κ × Option δ)} (h : SkOk lt s Ls l)
    (he : Ls = [] → l = []) : SkOk lt (skAddLevel s) (topLevel s :: Ls) l where
  head := rfl
  tail := rfl
  levels := by show s.levels + 1 = _; rw [h.levels]; simp
  ok L hL := by
    rcases List.mem_cons.1 hL with rfl | hL
    · exact topLevel_ok
    · have hf : ∀ x ∈ L.ids, x < s.fresh := fun x hx => h.fresh x (mem_nodesOf.2 ⟨L, hL, hx⟩)
      refine (h.ok L hL).congr (fun x hx => add_next (hf x ?_)) (fun x hx => add_key (hf x hx))
      exact mem_ids.2 (by rcases List.mem_cons.1 hx with e | e <;> simp [e])
  overs := by
    have ho := overs_congr h.overs (s' := skAddLevel s) (fun x hx => add_down (h.fresh x hx)) (fun x hx => add_key (h.fresh x hx))
    cases Ls with
    | nil => trivial
    | cons M Ls =>
      refine ⟨⟨?_, ?_, List.nil_sublist _, nofun⟩, ho⟩
      · have := h.head
        simp [topLevel, skAddLevel, skAlloc, skSet, this]
      · have := h.tail
        simp [topLevel, skAddLevel, skAlloc, skSet, this]
  ground L hL := by
    cases Ls with
    | nil =>
      simp at hL; subst hL
      have h1 := h.head; have h2 := h.tail
      refine ⟨?_, ?_, nofun⟩
      · simp [topLevel, skAddLevel, skAlloc, skSet, h1]
      · simp [topLevel, skAddLevel, skAlloc, skSet, h2]
    | cons M Ls =>
      rw [List.getLast?_cons_cons] at hL
      exact ground_congr (h.ground L hL) (fun x hx => add_down (h.fresh x (mem_nodesOf.2 ⟨L, List.mem_of_getLast? hL, hx⟩)))
  nodup := by
    rw [nodesOf_cons]
    refine List.nodup_append.2 ⟨by simp [topLevel, SkLevel.ids], h.nodup, ?_⟩
    intro a ha b hb e
    have := h.fresh b hb
    simp [topLevel, SkLevel.ids] at ha
    omega
  fresh x hx := by
    show x < s.fresh + 1 + 1
    rw [nodesOf_cons] at hx
    rcases List.mem_append.1 hx with hx | hx
    · simp [topLevel, SkLevel.ids] at hx; omega
    · have := h.fresh x hx; omega
  content := by
    cases Ls with
    | nil => rw [he rfl]; rfl
    | cons M Ls =>
      have e : bottomBody (topLevel s :: M :: Ls) = bottomBody (M :: Ls) := bottomBody_cons (A := [])
      rw [e, ← h.content]
      refine List.map_congr_left (fun x hx => ?_)
      have hf := h.fresh x (bottomBody_mem hx)
      rw [add_key hf, add_data hf]

theorem raise_addLevel {lt : κ → κ → Bool} {s : Skip κ δ} {k : κ} {path : List Nat} {below : Nat} {C : SkLevel} {B : List SkLevel}
    {l : List (κ × Option δ)} (h : Raising lt s k path below [] C B l) :
    Raising lt (skAddLevel s) k [(skAddLevel s).head.getD 0] below ([] ++ [topLevel s]) C B l := by
  have hi : SkOk lt s (C :: B) l := h.inv
  have hi' := addLevel_ok hi nofun
  obtain ⟨lo, hi2, eC, hlo, hhi, hov⟩ := h.split
  have hf : ∀ x ∈ C.ids, x < s.fresh := fun x hx => hi.fresh x (mem_nodesOf.2 ⟨C, by simp, hx⟩)
  have hf1 : ∀ x ∈ lo, x < s.fresh := fun x hx => hf x (mem_ids.2 (.inr (.inr (by rw [eC]; simp [hx]))))
  have hf2 : ∀ x ∈ hi2, x < s.fresh := fun x hx => hf x (mem_ids.2 (.inr (.inr (by rw [eC]; simp [hx]))))
  refine ⟨hi', ⟨lo, hi2, eC, ?_, ?_, ?_⟩, ?_, ?_⟩
  · intro x hx; simpa [Under, add_key (hf1 x hx)] using hlo x hx
  · intro x hx; simpa [Under, add_key (hf2 x hx)] using hhi x hx
  · exact ⟨⟨hi'.overs.1.h, hi'.overs.1.t, List.nil_sublist _, nofun⟩, trivial⟩
  · rw [add_key (hf below (mem_ids.2 (.inr (.inr (by rw [eC]; simp)))))]; exact h.key
  · intro i M hM
    match i, hM with
    | 0, hM =>
      cases hM
      simp [predOf, loOf, topLevel, skAddLevel, skAlloc]
    | i + 1, hM => simp at hM

theorem Raising.weaken {lt : κ → κ → Bool} {s : Skip κ δ} {k : κ} {path path' : List Nat} {below : Nat} {C : SkLevel} {B : List SkLevel}
    {l : List (κ × Option δ)} (h : Raising lt s k path below [] C B l) : Raising lt s k path' below [] C B l :=
  ⟨h.inv, h.split, h.key, by intro i M hM; simp at hM⟩

theorem skRaise_spec {lt : κ → κ → Bool} (ho : StrictTotal fun a b => lt a b = true) {k : κ} {path : List Nat} {flips : Nat → Bool}
    {total : Nat} {l : List (κ × Option δ)} : ∀ (rounds level : Nat) (s : Skip κ δ) (below : Nat) (A : List SkLevel) (C : SkLevel) (B : List SkLevel),
    Raising lt s k path below A C B l → (A.length + level = total ∨ (A = [] ∧ total < level)) →
    ∃ s' Ls, skRaise flips k path total rounds level below s = .ok s' ∧ SkOk lt s' Ls l ∧ s'.num = s.num ∧ Ls ≠ []
  | 0, level, s, below, A, C, B, h, _ => ⟨s, A ++ C :: B, rfl, h.inv, rfl, by simp⟩
  | rounds + 1, level, s, below, A, C, B, h, hl => by
    unfold skRaise
    by_cases hc : (flips level && decide (level ≤ total)) = true
    · rw [if_pos hc]
      have hle : level ≤ total := by simp at hc; exact hc.2
      rcases hl with hl | hl
      · by_cases ht : level = total
        · have hA : A = [] := List.eq_nil_of_length_eq_zero (by omega)
          subst hA
          rw [if_pos ht]
          have hr := raise_step ho (raise_addLevel h)
          have ep : predOf lt (skAddLevel s) k (topLevel s) = s.fresh + 1 := rfl
          obtain ⟨s', Ls, e, h1, h2, h3⟩ := skRaise_spec (flips := flips) (total := total) ho rounds (level + 1) _ _ [] _ _ (hr.weaken (path' := path)) (.inr ⟨rfl, by omega⟩)
          refine ⟨s', Ls, ?_, h1, h2, h3⟩
          rw [← e]
          rw [ep]
          rfl
        · rw [if_neg ht]
          obtain ⟨A', L, rfl⟩ : ∃ A' L, A = A' ++ [L] := by
            have : A ≠ [] := fun e => by subst e; simp at hl; omega
            exact ⟨A.dropLast, A.getLast this, (List.dropLast_concat_getLast this).symm⟩
          have hlen : total - 1 - level = A'.length := by simp at hl; omega
          have hp := h.onPath A'.length L (by simp)
          rw [hlen, rd_of_some hp]
          obtain ⟨s', Ls, e, h1, h2, h3⟩ := skRaise_spec (flips := flips) (total := total) ho rounds (level + 1) _ _ A' _ _ (raise_step ho h) (.inl (by simp at hl; omega))
          refine ⟨s', Ls, ?_, h1, h2, h3⟩
          rw [← e]
          rfl
      · omega
    · rw [if_neg hc]
      exact ⟨s, A ++ C :: B, rfl, h.inv, rfl, by simp⟩


/-! ## Search -/

theorem walk_enough {lt : κ → κ → Bool} {s : Skip κ δ} {Ls : List SkLevel} {l : List (κ × Option δ)} (h : SkOk lt s Ls l) : walkCost Ls ≤ s.fresh := by
  refine Nat.le_trans (walkCost_le Ls) ?_
  have := nodup_length_le (b := List.range s.fresh) h.nodup (fun x hx => List.mem_range.2 (h.fresh x hx))
  simpa using this

theorem skPath_spec {lt : κ → κ → Bool} {s : Skip κ δ} {Ls : List SkLevel} {l : List (κ × Option δ)} (h : SkOk lt s Ls l) (hne : Ls ≠ []) (k : κ)
    {fuel : Nat} (hf : s.fresh < fuel) : skPath (geOf lt) fuel s k = .ok (Ls.map (predOf lt s k)) := by
  cases Ls with
  | nil => exact absurd rfl hne
  | cons L Ls =>
    unfold skPath
    rw [h.head]
    have := skSearch_levels (k := k) Ls L L.h fuel [] h.ok h.overs h.ground (by simp) (Nat.lt_of_le_of_lt (walk_enough h) hf)
    simpa using this

/-- Decomposition at the lowest level. -/
theorem bottom_split {Ls : List SkLevel} (hne : Ls ≠ []) : ∃ A C, Ls = A ++ [C] :=
  ⟨Ls.dropLast, Ls.getLast hne, (List.dropLast_concat_getLast hne).symm⟩

theorem bottomBody_snoc {A : List SkLevel} {C : SkLevel} : bottomBody (A ++ [C]) = C.body := by simp [bottomBody]

theorem skTip_snoc {f : SkLevel → Nat} {A : List SkLevel} {C : SkLevel} : skTip ((A ++ [C]).map f) = .ok (f C) := by simp [skTip]

theorem content_filter {s : Skip κ δ} {b : List Nat} {l : List (κ × Option δ)} (p : SKey κ → Bool)
    (h : b.map (fun x => (s.key x, s.data x)) = l.map (fun e => (SKey.key e.1, e.2))) :
    (b.filter fun x => p (s.key x)).map (fun x => (s.key x, s.data x))
      = (l.filter fun e => p (SKey.key e.1)).map (fun e => (SKey.key e.1, e.2)) := by
  have e1 := congrArg (List.filter fun a : SKey κ × Option δ => p a.1) h
  rw [List.filter_map, List.filter_map] at e1
  exact e1

/-! ## Insertion -/

/-- Where `insert` puts a pair: before those whose keys are not smaller. -/
def skAdd (lt : κ → κ → Bool) (k : κ) (d : Option δ) (l : List (κ × Option δ)) : List (κ × Option δ) :=
  l.filter (fun e => lt e.1 k) ++ (k, d) :: l.filter (fun e => !lt e.1 k)

theorem skInsert_spec {lt : κ → κ → Bool} (ho : StrictTotal fun a b => lt a b = true) {s : Skip κ δ} {Ls : List SkLevel} {l : List (κ × Option δ)}
    (h : SkOk lt s Ls l) (hne : Ls ≠ []) (k : κ) (d : Option δ) (flips : Nat → Bool) {fuel : Nat} (hf : s.fresh < fuel) :
    ∃ s' Ls', skInsert (geOf lt) fuel flips s k d = .ok s' ∧ SkOk lt s' Ls' (skAdd lt k d l) ∧ s'.num = s.num + 1 ∧ Ls' ≠ [] := by
  obtain ⟨A, C, rfl⟩ := bottom_split hne
  have hC := h.ok C (by simp)
  have hfr : ∀ M ∈ A ++ [C], ∀ x ∈ M.ids, x < s.fresh := fun M hM x hx => h.fresh x (mem_nodesOf.2 ⟨M, hM, hx⟩)
  have hnd := hang_nodup (k := k) hC h.nodup h.fresh
  have hG := h.ground C (by simp)
  have hCs : C.body.Sublist (withNode lt s k C).body := by
    conv => lhs; rw [hC.split k]
    exact List.Sublist.append (List.Sublist.refl _) (List.Sublist.cons _ (List.Sublist.refl _))
  have hov' : Overs (skHang s k d none (predOf lt s k C)) (A ++ [C]) := overs_hang h.overs h.fresh
  have hcont : ∀ (P : SKey κ → Bool), ((C.body.filter fun x => P (s.key x)).map fun x => ((skHang s k d none (predOf lt s k C)).key x, (skHang s k d none (predOf lt s k C)).data x))
      = (l.filter fun e => P (.key e.1)).map (fun e => (SKey.key e.1, e.2)) := by
    intro P
    have := content_filter P h.content
    rw [bottomBody_snoc] at this
    rw [← this]
    refine List.map_congr_left (fun x hx => ?_)
    have hxf := hfr C (by simp) x (mem_ids.2 (.inr (.inr (List.mem_filter.1 hx).1)))
    rw [hang_key hxf, hang_data hxf]
  have hr : Raising lt (skHang s k d none (predOf lt s k C)) k ((A ++ [C]).map (predOf lt s k)) s.fresh A (withNode lt s k C) [] (skAdd lt k d l) := by
    refine ⟨⟨?_, ?_, ?_, hang_ok ho h.ok h.nodup h.fresh, ?_, ?_, hnd.1, hnd.2, ?_⟩, ?_, hang_new_key, ?_⟩
    · rw [head?_withNode.1]; exact h.head
    · rw [head?_withNode.2]; exact h.tail
    · show s.levels = _
      rw [h.levels]; simp
    · exact overs_grow (L := C) (L' := withNode lt s k C) rfl rfl hCs hov'
    · intro M hM
      simp at hM
      subst hM
      refine ⟨?_, ?_, ?_⟩
      · rw [show (withNode lt s k C).h = C.h from rfl, hang_down (hfr C (by simp) _ (by simp [SkLevel.ids]))]; exact hG.h
      · rw [show (withNode lt s k C).t = C.t from rfl, hang_down (hfr C (by simp) _ (by simp [SkLevel.ids]))]; exact hG.t
      · intro x hx
        have hx' : x = s.fresh ∨ x ∈ C.body := by
          rw [hC.split k]
          simp only [withNode, List.mem_append, List.mem_cons] at hx ⊢
          rcases hx with h | h | h <;> simp [h]
        rcases hx' with e | hx'
        · rw [e, hang_new_down]
        · rw [hang_down (hfr C (by simp) x (mem_ids.2 (.inr (.inr hx'))))]; exact hG.body x hx'
    · rw [bottomBody_snoc]
      have e1 := hcont fun a => !skGe (geOf lt) a k
      have e2 := hcont fun a => !!skGe (geOf lt) a k
      show (loOf lt s k C ++ s.fresh :: hiOf lt s k C).map _ = (skAdd lt k d l).map _
      rw [skAdd, List.map_append, List.map_append, List.map_cons, List.map_cons, hang_new_key, hang_new_data]
      have g1 : (fun e : κ × Option δ => !skGe (geOf lt) (SKey.key e.1) k) = fun e => lt e.1 k := by funext e; simp [skGe, geOf]
      have g2 : (fun e : κ × Option δ => !!skGe (geOf lt) (SKey.key e.1) k) = fun e => !lt e.1 k := by funext e; simp [skGe, geOf]
      rw [g1] at e1; rw [g2] at e2
      rw [← e1, ← e2]; rfl
    · refine ⟨loOf lt s k C, hiOf lt s k C, rfl, ?_, ?_, ?_⟩
      · intro x hx
        simpa [Under, hang_key (hfr C (by simp) x (mem_ids.2 (.inr (.inr (lo_under hx).1))))] using (lo_under hx).2
      · intro x hx
        simpa [Under, hang_key (hfr C (by simp) x (mem_ids.2 (.inr (.inr (hi_over hx).1))))] using (hi_over hx).2
      · show Overs _ (A ++ [⟨C.h, C.t, loOf lt s k C ++ hiOf lt s k C⟩])
        rw [← hC.split k]; exact hov'
    · intro i M hM
      have hMA : M ∈ A := List.mem_of_getElem? hM
      obtain ⟨hi, _⟩ := List.getElem?_eq_some_iff.1 hM
      have e : ((A ++ [C]).map (predOf lt s k))[i]? = some (predOf lt s k M) := by
        rw [List.getElem?_map, List.getElem?_append_left hi, hM]; rfl
      rw [e]
      have : loOf lt (skHang s k d none (predOf lt s k C)) k M = loOf lt s k M := by
        refine List.filter_congr ?_
        intro x hx
        simp [Under, hang_key (hfr M (by simp [hMA]) x (mem_ids.2 (.inr (.inr hx))))]
      show some ((loOf lt s k M).getLastD M.h) = some ((loOf lt (skHang s k d none (predOf lt s k C)) k M).getLastD M.h)
      rw [this]
  have hlev : s.levels = A.length + 1 := by rw [h.levels]; simp
  obtain ⟨s', Ls', e, h1, h2, h3⟩ := skRaise_spec (flips := flips) (total := s.levels) ho (s.levels + 1) 1 _ _ A _ [] hr (.inl hlev.symm)
  refine ⟨{ s' with num := s'.num + 1 }, Ls', ?_, ⟨h1.head, h1.tail, h1.levels, fun L hL => ?_, ?_, fun L hL => ?_, h1.nodup, h1.fresh, h1.content⟩, ?_, h3⟩
  · unfold skInsert
    rw [skPath_spec h hne k hf, ok_bind, skTip_snoc, ok_bind]
    show (skRaise flips k _ s.levels (s.levels + 1) 1 s.fresh (skHang s k d none (predOf lt s k C)) >>= _) = _
    rw [e]; rfl
  · have := h1.ok L hL
    exact this.congr (fun _ _ => rfl) (fun _ _ => rfl)
  · exact overs_congr h1.overs (fun _ _ => rfl) (fun _ _ => rfl)
  · exact ground_congr (h1.ground L hL) (fun _ _ => rfl)
  · show s'.num + 1 = _
    rw [h2]; rfl


/-! ## Extraction -/

section extract
variable [DecidableEq κ]

/-- The test `node.key == key`. -/
def HasKey (s : Skip κ δ) (k : κ) (x : Nat) : Bool := skEq (s.key x) k

/-- The level without its first node with key `k`. -/
def dropKey (s : Skip κ δ) (k : κ) (L : SkLevel) : SkLevel := ⟨L.h, L.t, L.body.eraseP (HasKey s k)⟩

theorem hasKey_iff {s : Skip κ δ} {k : κ} {x : Nat} : HasKey s k x = true ↔ s.key x = .key k := by
  unfold HasKey skEq
  cases s.key x <;> simp

theorem under_hasKey {lt : κ → κ → Bool} (ho : StrictTotal fun a b => lt a b = true) {s : Skip κ δ} {k : κ} {x : Nat} (h : Under lt s k x = true) :
    HasKey s k x = false := by
  cases e : HasKey s k x with
  | false => rfl
  | true =>
    rw [under_key (hasKey_iff.1 e)] at h
    exact absurd h (ho.irrefl k)

/-- Whether the level has the key is seen at the node after the predecessor. -/
theorem hasKey_succ {lt : κ → κ → Bool} (ho : StrictTotal fun a b => lt a b = true) {s : Skip κ δ} {L : SkLevel} (hL : LevelOk lt s L) (k : κ) :
    (HasKey s k (succOf lt s k L) = true ∧ ∃ hi', hiOf lt s k L = succOf lt s k L :: hi') ∨
    (HasKey s k (succOf lt s k L) = false ∧ ∀ x ∈ L.body, HasKey s k x = false) := by
  unfold succOf
  cases e : hiOf lt s k L with
  | nil =>
    right
    refine ⟨by simp [HasKey, hL.high, skEq], fun x hx => ?_⟩
    rw [hL.split k, e, List.append_nil] at hx
    exact under_hasKey ho (lo_under hx).2
  | cons y ys =>
    cases ek : HasKey s k y with
    | true => left; exact ⟨ek, ys, rfl⟩
    | false =>
      right
      refine ⟨ek, fun x hx => ?_⟩
      rw [hL.split k] at hx
      rcases List.mem_append.1 hx with hx | hx
      · exact under_hasKey ho (lo_under hx).2
      · have hy := hi_over (L := L) (lt := lt) (s := s) (k := k) (x := y) (by rw [e]; simp)
        rw [e] at hx
        rcases List.mem_cons.1 hx with rfl | hx
        · exact ek
        · have hs := hL.sorted
          rw [hL.split k, List.pairwise_append, e] at hs
          have hyx := (List.pairwise_cons.1 hs.2.1).1 x hx
          cases ex : HasKey s k x with
          | false => rfl
          | true =>
            exfalso
            obtain ⟨b, hb⟩ := hL.keyed y hy.1
            have h1 := hy.2
            rw [under_key hb] at h1
            rcases ho.tri k b with h | h | h
            · -- `k < b`, but the order of the level says `b ≤ k`
              have h3 := hyx b
              have h4 : Under lt s b x = true := by rw [under_key (hasKey_iff.1 ex)]; exact h
              have := h3 h4
              rw [under_key hb] at this
              exact ho.irrefl b this
            · rw [← h] at hb
              rw [hasKey_iff.2 hb] at ek; cases ek
            · have h' : lt b k = true := h
              rw [h1] at h'; cases h'

theorem nokey_up {s : Skip κ δ} {k : κ} {L : SkLevel} (hL : ∀ x ∈ L.body, HasKey s k x = false) : ∀ {A : List SkLevel}, Overs s (A ++ [L]) →
    ∀ M ∈ A ++ [L], ∀ x ∈ M.body, HasKey s k x = false
  | [], _, M, hM => by simp at hM; subst hM; exact hL
  | [N], h, M, hM => by
    rcases List.mem_cons.1 hM with rfl | hM
    · intro x hx
      obtain ⟨y, hy, e⟩ := h.1.mem hx
      have := hL y hy
      simpa [HasKey, h.1.key x hx y e] using this
    · simp at hM; subst hM; exact hL
  | N :: O :: A, h, M, hM => by
    have ih := nokey_up hL (A := O :: A) h.2
    rcases List.mem_cons.1 hM with rfl | hM
    · intro x hx
      obtain ⟨y, hy, e⟩ := h.1.mem hx
      have := ih O (by simp) y hy
      simpa [HasKey, h.1.key x hx y e] using this
    · exact ih M hM

theorem dropKey_id {s : Skip κ δ} {k : κ} {L : SkLevel} (h : ∀ x ∈ L.body, HasKey s k x = false) : dropKey s k L = L := by
  unfold dropKey
  rw [List.eraseP_of_forall_not (fun x hx => by simp [h x hx])]

theorem dropKey_here {lt : κ → κ → Bool} (ho : StrictTotal fun a b => lt a b = true) {s : Skip κ δ} {L : SkLevel} (hL : LevelOk lt s L) {k : κ} {n : Nat}
    {hi : List Nat} (e : hiOf lt s k L = n :: hi) (hn : HasKey s k n = true) :
    (dropKey s k L).body = loOf lt s k L ++ hi ∧ L.body = loOf lt s k L ++ n :: hi := by
  have hb : L.body = loOf lt s k L ++ n :: hi := by rw [← e]; exact hL.split k
  refine ⟨?_, hb⟩
  show L.body.eraseP _ = _
  conv => lhs; rw [hb]
  rw [List.eraseP_append_right _ (fun x hx => by simp [under_hasKey ho (lo_under hx).2]), List.eraseP_cons_of_pos hn]

theorem dropKey_sub {s : Skip κ δ} {k : κ} {L : SkLevel} : (dropKey s k L).body.Sublist L.body := List.eraseP_sublist

/-- The state while the nodes are taken out: only links to the right have changed. -/
structure Unlinking (s0 s : Skip κ δ) : Prop where
  key : s.key = s0.key
  data : s.data = s0.data
  down : s.down = s0.down
  fresh : s.fresh = s0.fresh
  head : s.head = s0.head
  tail : s.tail = s0.tail
  levels : s.levels = s0.levels
  num : s.num = s0.num

theorem skUnlink_spec {lt : κ → κ → Bool} (ho : StrictTotal fun a b => lt a b = true) {k : κ} {s0 : Skip κ δ} {path : List Nat} :
    ∀ (m : Nat) (A B : List SkLevel) (s : Skip κ δ), A.length = m → Unlinking s0 s → Overs s0 A → (nodesOf (A ++ B)).Nodup →
    (∀ (i : Nat) (M : SkLevel), A[i]? = some M → path[i]? = some (predOf lt s0 k M)) →
    (∀ M ∈ A, LevelOk lt s M) → (∀ M ∈ B, LevelOk lt s (dropKey s0 k M)) →
    ∃ s', skUnlink k path m s = .ok s' ∧ Unlinking s0 s' ∧ ∀ M ∈ A ++ B, LevelOk lt s' (dropKey s0 k M)
  | 0, A, B, s, hm, hu, _, _, _, _, hB => by
    have : A = [] := List.eq_nil_of_length_eq_zero hm
    subst this
    exact ⟨s, rfl, hu, hB⟩
  | m + 1, A, B, s, hm, hu, hov, hn, hp, hA, hB => by
    obtain ⟨A', L, rfl⟩ := bottom_split (Ls := A) (by intro e; subst e; simp at hm)
    have hlen : A'.length = m := by simp at hm; exact hm
    have hL := hA L (by simp)
    have hpm := hp m L (by rw [← hlen]; simp)
    have hun : ∀ x j, Under lt s j x = Under lt s0 j x := fun x j => by simp only [Under, hu.key]
    have hlo : loOf lt s k L = loOf lt s0 k L := List.filter_congr (fun x _ => hun x k)
    have hpr : predOf lt s k L = predOf lt s0 k L := by simp only [predOf, hlo]
    have hhk : ∀ x, HasKey s k x = HasKey s0 k x := fun x => by simp only [HasKey, hu.key]
    have hdk : ∀ M, dropKey s k M = dropKey s0 k M := fun M => by
      unfold dropKey
      rw [show HasKey s k = HasKey s0 k from funext hhk]
    unfold skUnlink
    rw [rd_of_some hpm, ← hpr]
    simp only [ok_bind, hL.pred_next k, skRef]
    rcases hasKey_succ ho hL k with ⟨ht, hi', ehi⟩ | ⟨hf, hall⟩
    · rw [if_pos (show skEq (s.key (succOf lt s k L)) k = true from ht)]
      obtain ⟨eb, eb'⟩ := dropKey_here ho hL ehi ht
      have hc := hL.chain
      rw [eb'] at hc
      obtain ⟨hc1, hc2⟩ := chain_append.1 hc
      have hLn : L.ids.Nodup := by
        rw [List.append_assoc] at hn
        exact nodup_level hn
      obtain ⟨z, hz, hchain⟩ : ∃ z, s.next (succOf lt s k L) = some z ∧
          ∀ f : Nat → Option Nat, NextChain f L.h (loOf lt s k L) z → (∀ x ∈ hi', f x = s.next x) → NextChain f L.h (loOf lt s k L ++ hi') L.t := by
        cases hi' with
        | nil => exact ⟨L.t, hc2, fun f hf _ => by rw [List.append_nil]; exact hf⟩
        | cons y ys => exact ⟨y, hc2.1, fun f hf hg => chain_append.2 ⟨hf, chain_congr hg hc2.2⟩⟩
      rw [hz]
      have hmemid : ∀ x, x ∈ L.h :: loOf lt s k L → x ∈ L.ids := fun x hx => mem_ids.2 (by
        rcases List.mem_cons.1 hx with e | e
        · simp [e]
        · simp [(lo_under e).1])
      have hpid : predOf lt s k L ∈ L.ids := hmemid _ pred_mem
      have hnl : (L.h :: loOf lt s k L).Nodup := by
        refine List.Nodup.sublist ?_ hLn
        exact List.Sublist.cons_cons _ (List.Sublist.cons _ List.filter_sublist)
      have hhip : ∀ x ∈ hi', x ≠ predOf lt s k L := by
        intro x hx e
        have hxh : x ∈ hiOf lt s k L := by rw [ehi]; exact List.mem_cons_of_mem _ hx
        rcases List.mem_cons.1 (pred_mem (lt := lt) (s := s) (L := L) (k := k)) with h | h
        · rw [e, h] at hxh
          have hnd' := hLn
          simp only [SkLevel.ids, List.nodup_cons, List.mem_cons, not_or] at hnd'
          exact hnd'.1.2 (hi_over hxh).1
        · rw [← e] at h
          have := (lo_under h).2; rw [(hi_over hxh).2] at this; cases this
      have hother : ∀ M, M ∈ A' ++ B → ∀ x ∈ M.ids, skSet s.next (predOf lt s k L) (some z) x = s.next x := by
        intro M hM x hx
        have hne : x ≠ predOf lt s k L := fun e => by
          rw [List.append_assoc] at hn
          exact nodup_apart hn hM hpid (by rw [← e]; exact hx)
        simp [skSet, hne]
      obtain ⟨s', e, h1, h2⟩ := skUnlink_spec ho (k := k) (s0 := s0) (path := path) m A' (L :: B)
        { s with next := skSet s.next (predOf lt s k L) (some z) } hlen
        ⟨hu.key, hu.data, hu.down, hu.fresh, hu.head, hu.tail, hu.levels, hu.num⟩ hov.of_snoc
        (by simpa using hn)
        (fun i M hM => hp i M (by
          obtain ⟨hi, _⟩ := List.getElem?_eq_some_iff.1 hM
          rw [List.getElem?_append_left hi]; exact hM))
        (fun M hM => (hA M (by simp [hM])).congr (fun x hx => hother M (by simp [hM]) x (mem_ids.2 (by rcases List.mem_cons.1 hx with e | e <;> simp [e])))
          (fun _ _ => rfl))
        (by
          intro M hM
          rcases List.mem_cons.1 hM with rfl | hM
          · refine ⟨?_, ?_, ?_, ?_, ?_⟩
            · rw [← hdk]
              show NextChain _ M.h (dropKey s k M).body M.t
              rw [eb]
              refine hchain _ (chain_redirect hnl (hL.lo_chain k)) ?_
              intro x hx
              simp [skSet, hhip x hx]
            · exact hL.low
            · exact hL.high
            · intro x hx
              exact hL.keyed x (dropKey_sub.subset hx)
            · exact hL.sorted.sublist dropKey_sub
          · refine (hB M hM).congr (fun x hx => hother M (by simp [hM]) x (mem_ids.2 ?_)) (fun _ _ => rfl)
            rcases List.mem_cons.1 hx with e | e
            · exact .inl e
            · exact .inr (.inr (dropKey_sub.subset e)))
      refine ⟨s', e, h1, ?_⟩
      simpa using h2
    · rw [if_neg (show ¬ skEq (s.key (succOf lt s k L)) k = true by simp only [HasKey] at hf; rw [hf]; simp)]
      refine ⟨s, rfl, hu, ?_⟩
      intro M hM
      rcases List.mem_append.1 hM with hM | hM
      · rw [dropKey_id (nokey_up (fun x hx => by rw [← hhk]; exact hall x hx) hov M hM)]
        exact hA M hM
      · exact hB M hM


theorem eraseP_congr {α : Type} {p q : α → Bool} : ∀ {l : List α}, (∀ x ∈ l, p x = q x) → l.eraseP p = l.eraseP q
  | [], _ => rfl
  | x :: l, h => by
    have ih := eraseP_congr (fun y hy => h y (List.mem_cons_of_mem _ hy))
    have hx := h x (by simp)
    cases e : p x with
    | true => rw [List.eraseP_cons_of_pos e, List.eraseP_cons_of_pos (hx ▸ e)]
    | false => rw [List.eraseP_cons_of_neg (by simp [e]), List.eraseP_cons_of_neg (by rw [← hx]; simp [e]), ih]

theorem over_drop {s : Skip κ δ} {k : κ} {L M : SkLevel} (h : OverLevel s L M) : OverLevel s (dropKey s k L) (dropKey s k M) where
  h := h.h
  t := h.t
  sub := by
    have := h.sub.eraseP (p := fun o : Option Nat => match o with | some y => HasKey s k y | none => false)
    rw [List.eraseP_map, List.eraseP_map] at this
    refine List.Sublist.trans ?_ this
    have e : (dropKey s k L).body = L.body.eraseP ((fun o : Option Nat => match o with | some y => HasKey s k y | none => false) ∘ s.down) := by
      refine eraseP_congr ?_
      intro x hx
      obtain ⟨y, hy, e⟩ := h.mem hx
      simp only [Function.comp, e]
      simp only [HasKey, h.key x hx y e]
    rw [e]
    exact List.Sublist.refl _
  key x hx y hy := h.key x (dropKey_sub.subset hx) y hy

theorem overs_drop {s : Skip κ δ} {k : κ} : ∀ {Ls : List SkLevel}, Overs s Ls → Overs s (Ls.map (dropKey s k))
  | [], _ => trivial
  | [_], _ => trivial
  | _ :: M :: Ls, h => ⟨over_drop h.1, overs_drop (Ls := M :: Ls) h.2⟩

theorem dropKey_ids {s : Skip κ δ} {k : κ} {L : SkLevel} : (dropKey s k L).ids.Sublist L.ids :=
  List.Sublist.cons_cons _ (List.Sublist.cons_cons _ dropKey_sub)

theorem nodesOf_drop {s : Skip κ δ} {k : κ} : ∀ {Ls : List SkLevel}, (nodesOf (Ls.map (dropKey s k))).Sublist (nodesOf Ls)
  | [] => List.Sublist.refl _
  | L :: Ls => by
    rw [List.map_cons, nodesOf_cons, nodesOf_cons]
    exact List.Sublist.append dropKey_ids nodesOf_drop

/-- Empty levels at the top are dropped. -/
theorem skTrim_spec {lt : κ → κ → Bool} {l : List (κ × Option δ)} : ∀ (Ls : List SkLevel) (s : Skip κ δ) (fuel : Nat), SkOk lt s Ls l → (Ls = [] → l = []) →
    Ls.length < fuel → ∃ s' Ls', skTrim fuel s.head s = .ok s' ∧ SkOk lt s' Ls' l ∧ (Ls' = [] → l = []) ∧ s'.num = s.num
  | [], s, fuel, h, he, hf => by
    obtain ⟨q, rfl⟩ : ∃ q, fuel = q + 1 := ⟨fuel - 1, by simp at hf; omega⟩
    refine ⟨s, [], ?_, h, he, rfl⟩
    rw [h.head]; rfl
  | L :: Ls, s, fuel, h, he, hf => by
    obtain ⟨q, rfl⟩ : ∃ q, fuel = q + 1 := ⟨fuel - 1, by simp at hf; omega⟩
    have hh : s.head = some L.h := h.head
    have ht : s.tail = some L.t := h.tail
    have hL := h.ok L (by simp)
    rw [hh]
    unfold skTrim
    cases eb : L.body with
    | cons x xs =>
      have hc := hL.chain
      rw [eb] at hc
      have hnd : L.ids.Nodup := nodup_level (A := []) (B := Ls) h.nodup
      have hne : s.next L.h ≠ s.tail := by
        rw [hc.1, ht]
        intro e
        have hxt : x = L.t := Option.some.inj e
        simp only [SkLevel.ids, eb, List.nodup_cons, List.mem_cons, not_or] at hnd
        exact hnd.2.1.1 hxt.symm
      rw [if_neg hne]
      exact ⟨s, L :: Ls, rfl, h, nofun, rfl⟩
    | nil =>
      have hc := hL.chain
      rw [eb] at hc
      have hc' : s.next L.h = some L.t := hc
      rw [if_pos (by rw [hc', ht]), ht]
      simp only [skRef, ok_bind]
      have hlv : s.levels - 1 = Ls.length := by rw [h.levels]; simp
      have hnew : SkOk lt ({ s with levels := s.levels - 1, head := s.down L.h, tail := s.down L.t } : Skip κ δ) Ls l := by
        have hokc : ∀ M ∈ Ls, LevelOk lt ({ s with levels := s.levels - 1, head := s.down L.h, tail := s.down L.t } : Skip κ δ) M :=
          fun M hM => (h.ok M (List.mem_cons_of_mem _ hM)).congr (fun _ _ => rfl) (fun _ _ => rfl)
        have hnd2 : (nodesOf Ls).Nodup := by
          have := h.nodup
          rw [nodesOf_cons] at this
          exact (List.nodup_append.1 this).2.1
        have hfr2 : ∀ x ∈ nodesOf Ls, x < s.fresh := fun x hx => h.fresh x (by rw [nodesOf_cons]; exact List.mem_append_right _ hx)
        cases Ls with
        | nil =>
          have hG := h.ground L rfl
          have hl : l = [] := by
            have hcn := h.content
            rw [show bottomBody [L] = L.body from rfl, eb] at hcn
            have : (l.map fun e => ((SKey.key e.1 : SKey κ), e.2)) = [] := hcn.symm
            simpa using this
          exact ⟨hG.h, hG.t, hlv, hokc, trivial, nofun, hnd2, hfr2, by rw [hl]; rfl⟩
        | cons M Ls =>
          refine ⟨h.overs.1.h, h.overs.1.t, hlv, hokc, overs_congr h.overs.2 (fun _ _ => rfl) (fun _ _ => rfl), fun N hN => ?_, hnd2, hfr2, ?_⟩
          · exact ground_congr (h.ground N (by rw [List.getLast?_cons_cons]; exact hN)) (fun _ _ => rfl)
          · have := h.content
            rw [show bottomBody (L :: M :: Ls) = bottomBody (M :: Ls) from bottomBody_cons (A := [])] at this
            exact this
      have hemp : Ls = [] → l = [] := by
        rintro rfl
        have hcn := h.content
        rw [show bottomBody [L] = L.body from rfl, eb] at hcn
        have : (l.map fun e => ((SKey.key e.1 : SKey κ), e.2)) = [] := hcn.symm
        simpa using this
      obtain ⟨s', Ls', e, h1, h2, h3⟩ := skTrim_spec Ls _ q hnew hemp (by simp at hf; omega)
      exact ⟨s', Ls', e, h1, h2, h3⟩

theorem content_find {s : Skip κ δ} {b : List Nat} {l : List (κ × Option δ)} {k : κ}
    (h : b.map (fun x => (s.key x, s.data x)) = l.map (fun e => (SKey.key e.1, e.2))) :
    (b.find? (HasKey s k)).map (fun x => (s.key x, s.data x)) = (l.find? (fun e => decide (e.1 = k))).map (fun e => (SKey.key e.1, e.2)) := by
  have e1 := congrArg (List.find? fun a : SKey κ × Option δ => skEq a.1 k) h
  rw [List.find?_map, List.find?_map] at e1
  exact e1

theorem content_erase {s : Skip κ δ} {b : List Nat} {l : List (κ × Option δ)} {k : κ}
    (h : b.map (fun x => (s.key x, s.data x)) = l.map (fun e => (SKey.key e.1, e.2))) :
    (b.eraseP (HasKey s k)).map (fun x => (s.key x, s.data x)) = (l.eraseP (fun e => decide (e.1 = k))).map (fun e => (SKey.key e.1, e.2)) := by
  have e1 := congrArg (List.eraseP fun a : SKey κ × Option δ => skEq a.1 k) h
  rw [List.eraseP_map, List.eraseP_map] at e1
  exact e1

theorem bottom_find {lt : κ → κ → Bool} (ho : StrictTotal fun a b => lt a b = true) {s : Skip κ δ} {L : SkLevel} (hL : LevelOk lt s L) (k : κ) :
    L.body.find? (HasKey s k) = if HasKey s k (succOf lt s k L) then some (succOf lt s k L) else none := by
  rcases hasKey_succ ho hL k with ⟨ht, hi', ehi⟩ | ⟨hf, hall⟩
  · rw [if_pos ht, hL.split k, ehi, List.find?_append, List.find?_eq_none.2 (fun x hx => by simp [under_hasKey ho (lo_under hx).2])]
    rw [List.find?_cons_of_pos ht]; rfl
  · rw [hf]
    exact List.find?_eq_none.2 (fun x hx => by simp [hall x hx])

theorem skSearch_spec {lt : κ → κ → Bool} (ho : StrictTotal fun a b => lt a b = true) {s : Skip κ δ} {Ls : List SkLevel} {l : List (κ × Option δ)}
    (h : SkOk lt s Ls l) (hne : Ls ≠ []) (k : κ) {fuel : Nat} (hf : s.fresh < fuel) :
    skSearch (geOf lt) fuel s k = .ok (l.find? (fun e => decide (e.1 = k))).isSome := by
  obtain ⟨A, C, rfl⟩ := bottom_split hne
  have hC := h.ok C (by simp)
  have hfind := content_find (k := k) h.content
  rw [bottomBody_snoc, bottom_find ho hC] at hfind
  unfold skSearch
  rw [skPath_spec h hne k hf, ok_bind, skTip_snoc, ok_bind, hC.pred_next k]
  simp only [skRef, ok_bind]
  congr 1
  show HasKey s k (succOf lt s k C) = _
  have := congrArg Option.isSome hfind
  rw [Option.isSome_map, Option.isSome_map] at this
  rw [← this]
  cases HasKey s k (succOf lt s k C) <;> rfl

/-- What `extract` does: the first pair with the key is taken out. -/
theorem skExtract_spec {lt : κ → κ → Bool} (ho : StrictTotal fun a b => lt a b = true) {s : Skip κ δ} {Ls : List SkLevel} {l : List (κ × Option δ)}
    (h : SkOk lt s Ls l) (hne : Ls ≠ []) (hnum : s.num = l.length) (k : κ) {fuel : Nat} (hf : s.fresh < fuel) :
    match l.find? (fun e => decide (e.1 = k)) with
    | none => skExtract (geOf lt) fuel s k = .error .keyError
    | some e => ∃ s' Ls', skExtract (geOf lt) fuel s k = .ok (s', e.1, e.2) ∧ SkOk lt s' Ls' (l.eraseP fun e => decide (e.1 = k)) ∧ Ls' ≠ [] ∧
        s'.num = (l.eraseP fun e => decide (e.1 = k)).length := by
  obtain ⟨A, C, rfl⟩ := bottom_split hne
  have hC := h.ok C (by simp)
  have hfind := content_find (k := k) h.content
  rw [bottomBody_snoc, bottom_find ho hC] at hfind
  have hpath : skExtract (geOf lt) fuel s k = (match s.key (succOf lt s k C) with
      | .key x =>
        if x = k then do
          let d := s.data (succOf lt s k C)
          let s ← skUnlink k ((A ++ [C]).map (predOf lt s k)) s.levels s
          let s ← skTrim fuel s.head s
          let s := { s with num := s.num - 1 }
          .ok (if s.levels = 0 then skAddLevel s else s, x, d)
        else .error .keyError
      | _ => .error .keyError) := by
    unfold skExtract
    rw [skPath_spec h hne k hf, ok_bind, skTip_snoc, ok_bind, hC.pred_next k]
    rfl
  cases ek : HasKey s k (succOf lt s k C) with
  | false =>
    rw [ek] at hfind
    have hnone : l.find? (fun e => decide (e.1 = k)) = none := by
      cases e : l.find? (fun e => decide (e.1 = k)) with
      | none => rfl
      | some a => rw [e] at hfind; cases hfind
    rw [hnone]
    show _ = _
    rw [hpath]
    cases e : s.key (succOf lt s k C) with
    | low => rfl
    | high => rfl
    | key x =>
      have : x ≠ k := fun hx => by
        rw [hx] at e
        rw [hasKey_iff.2 e] at ek; cases ek
      simp [this]
  | true =>
    rw [ek] at hfind
    have hkey := hasKey_iff.1 ek
    obtain ⟨a, ha, hka⟩ : ∃ a, l.find? (fun e => decide (e.1 = k)) = some a ∧ a = (k, s.data (succOf lt s k C)) := by
      cases e : l.find? (fun e => decide (e.1 = k)) with
      | none => rw [e] at hfind; cases hfind
      | some a =>
        rw [e] at hfind
        refine ⟨a, rfl, ?_⟩
        simp only [if_true, Option.map_some, hkey, Option.some.injEq, Prod.mk.injEq, SKey.key.injEq] at hfind
        exact Prod.ext hfind.1.symm hfind.2.symm
    rw [ha]
    show ∃ s' Ls', _
    rw [hpath, hkey, hka]
    simp only [if_true]
    have hov := h.overs
    obtain ⟨s1, e1, hu, hok1⟩ := skUnlink_spec ho (k := k) (s0 := s) (path := (A ++ [C]).map (predOf lt s k)) (A ++ [C]).length (A ++ [C]) [] s rfl
      ⟨rfl, rfl, rfl, rfl, rfl, rfl, rfl, rfl⟩ h.overs (by simpa using h.nodup)
      (fun i M hM => by rw [List.getElem?_map, hM]; rfl) h.ok nofun
    rw [List.append_nil] at hok1
    rw [h.levels, e1]
    simp only [ok_bind]
    have hs1 : SkOk lt s1 ((A ++ [C]).map (dropKey s k)) (l.eraseP fun e => decide (e.1 = k)) := by
      refine ⟨?_, ?_, ?_, ?_, ?_, ?_, h.nodup.sublist nodesOf_drop, ?_, ?_⟩
      · rw [hu.head, h.head]; cases A <;> rfl
      · rw [hu.tail, h.tail]; cases A <;> rfl
      · rw [hu.levels, h.levels]; simp
      · intro L hL
        obtain ⟨M, hM, rfl⟩ := List.mem_map.1 hL
        exact hok1 M hM
      · exact overs_congr (overs_drop h.overs) (fun x _ => by rw [hu.down]) (fun x _ => by rw [hu.key])
      · intro L hL
        simp at hL
        subst hL
        have hG := h.ground C (by simp)
        exact ⟨by rw [hu.down]; exact hG.h, by rw [hu.down]; exact hG.t, fun x hx => by rw [hu.down]; exact hG.body x (dropKey_sub.subset hx)⟩
      · intro x hx
        rw [hu.fresh]
        exact h.fresh x (nodesOf_drop.subset hx)
      · rw [List.map_append, List.map_cons, List.map_nil, bottomBody_snoc]
        have := h.content
        rw [bottomBody_snoc] at this
        rw [hu.key, hu.data]
        exact content_erase this
    obtain ⟨s2, Ls2, e2, h2, he2, hn2⟩ := skTrim_spec _ s1 fuel hs1 (by intro e; simp at e) (by
      have h3 : (A ++ [C]).length ≤ (nodesOf (A ++ [C])).length := by
        refine Nat.le_trans ?_ (walkCost_le _)
        exact length_le_walkCost _
      have h4 := nodup_length_le (b := List.range s.fresh) h.nodup (fun x hx => List.mem_range.2 (h.fresh x hx))
      simp only [List.length_range] at h4
      simp only [List.length_map]
      omega)
    rw [e2]
    simp only [ok_bind]
    have hlen : s2.num - 1 = (l.eraseP fun e => decide (e.1 = k)).length := by
      rw [hn2, hu.num, hnum]
      have hmem := List.mem_of_find?_eq_some ha
      have hp := List.find?_some ha
      rw [List.length_eraseP_of_mem hmem hp]
    have h3 : SkOk lt ({ s2 with num := s2.num - 1 } : Skip κ δ) Ls2 (l.eraseP fun e => decide (e.1 = k)) :=
      ⟨h2.head, h2.tail, h2.levels, fun L hL => (h2.ok L hL).congr (fun _ _ => rfl) (fun _ _ => rfl), overs_congr h2.overs (fun _ _ => rfl) (fun _ _ => rfl),
        fun L hL => ground_congr (h2.ground L hL) (fun _ _ => rfl), h2.nodup, h2.fresh, h2.content⟩
    by_cases hz : s2.levels = 0
    · refine ⟨skAddLevel { s2 with num := s2.num - 1 }, topLevel { s2 with num := s2.num - 1 } :: Ls2, ?_, addLevel_ok h3 he2, by simp, hlen⟩
      rw [if_pos hz]
    · refine ⟨{ s2 with num := s2.num - 1 }, Ls2, ?_, h3, ?_, hlen⟩
      · rw [if_neg hz]
      · rintro rfl; exact hz h2.levels

end extract

end Props
