import Verif.Lemmas.SkipList
import Verif.Lemmas.Trace

/-!
# C43: the skip list

The specification is a sorted list of pairs. `insert` places a pair before the pairs whose keys are not smaller, `search` asks whether
a pair with the key is there, `extract` takes the first pair with the key, that is the one inserted last, and raises `KeyError`
when there is none.
-/
namespace Props
open Py Model Spec

set_option linter.unusedSectionVars false
variable {κ δ : Type} [DecidableEq κ]

/-- The calls a user makes on a skip list. The random bits drawn by an insertion are part of the call: the theorems hold for all of them. -/
inductive SkOp (κ δ : Type) where
  | insert (k : κ) (d : Option δ) (bits : Nat → Bool)
  | search (k : κ)
  | extract (k : κ)
  | size

/-- What the caller sees: a value of each kind, or the exception. -/
inductive SkOut (κ δ : Type) where
  | done
  | found (b : Bool)
  | node (k : κ) (d : Option δ)
  | count (n : Nat)
  | raised (e : PyErr)
  deriving DecidableEq

/-- The specification. -/
def skSpec (lt : κ → κ → Bool) (l : List (κ × Option δ)) : SkOp κ δ → List (κ × Option δ) × SkOut κ δ
  | .insert k d _ => (l.takeWhile (fun e => lt e.1 k) ++ (k, d) :: l.dropWhile (fun e => lt e.1 k), .done)
  | .search k => (l, .found (l.any fun e => decide (e.1 = k)))
  | .extract k =>
    match l.find? (fun e => decide (e.1 = k)) with
    | some e => (l.eraseP (fun e => decide (e.1 = k)), .node e.1 e.2)
    | none => (l, .raised .keyError)
  | .size => (l, .count l.length)

/-- The program. `extra` is any additional number of iterations granted to the loops. A call that raises leaves the object as it is
(in the model: the exceptions of `extract` are raised before its first assignment). -/
def skStep (lt : κ → κ → Bool) (extra : Nat) (s : Skip κ δ) : SkOp κ δ → Skip κ δ × SkOut κ δ
  | .insert k d bits =>
    match skInsert (fun a b => !lt a b) (s.fresh + 1 + extra) bits s k d with
    | .ok s' => (s', .done)
    | .error e => (s, .raised e)
  | .search k =>
    match skSearch (fun a b => !lt a b) (s.fresh + 1 + extra) s k with
    | .ok b => (s, .found b)
    | .error e => (s, .raised e)
  | .extract k =>
    match skExtract (fun a b => !lt a b) (s.fresh + 1 + extra) s k with
    | .ok (s', k, d) => (s', .node k d)
    | .error e => (s, .raised e)
  | .size => (s, .count s.num)

/-- Sorted by key. -/
def SkSorted (lt : κ → κ → Bool) (l : List (κ × Option δ)) : Prop := l.Pairwise fun a b => lt b.1 a.1 = false

theorem sorted_split {lt : κ → κ → Bool} (ho : StrictTotal fun a b => lt a b = true) (k : κ) : ∀ {l : List (κ × Option δ)}, SkSorted lt l →
    l.takeWhile (fun e => lt e.1 k) = l.filter (fun e => lt e.1 k) ∧ l.dropWhile (fun e => lt e.1 k) = l.filter (fun e => !lt e.1 k)
  | [], _ => ⟨rfl, rfl⟩
  | a :: l, h => by
    obtain ⟨h1, h2⟩ := List.pairwise_cons.1 h
    obtain ⟨i1, i2⟩ := sorted_split ho k h2
    by_cases ha : lt a.1 k = true
    · simp [ha, i1, i2]
    · have ha : lt a.1 k = false := by simpa using ha
      have hall : ∀ b ∈ l, lt b.1 k = false := by
        intro b hb
        cases hbk : lt b.1 k with
        | false => rfl
        | true =>
          have h3 := h1 b hb
          rcases ho.tri a.1 b.1 with h4 | h4 | h4
          · have := ho.trans _ _ _ h4 hbk; rw [ha] at this; cases this
          · rw [h4, hbk] at ha; cases ha
          · rw [h4] at h3; cases h3
      have e1 : l.filter (fun e => lt e.1 k) = [] := List.filter_eq_nil_iff.2 (fun b hb => by simp [hall b hb])
      have e2 : l.filter (fun e => !lt e.1 k) = l := List.filter_eq_self.2 (fun b hb => by simp [hall b hb])
      simp [ha, e1, e2]

theorem sorted_add {lt : κ → κ → Bool} (ho : StrictTotal fun a b => lt a b = true) {k : κ} {d : Option δ} {l : List (κ × Option δ)}
    (h : SkSorted lt l) : SkSorted lt (skAdd lt k d l) := by
  have flip : ∀ {a b : κ}, lt a b = true → lt b a = false := by
    intro a b hab
    cases hba : lt b a with
    | false => rfl
    | true => exact absurd (ho.trans _ _ _ hab hba) (ho.irrefl _)
  refine List.pairwise_append.2 ⟨h.sublist List.filter_sublist, List.pairwise_cons.2 ⟨?_, h.sublist List.filter_sublist⟩, ?_⟩
  · intro b hb
    simpa using (List.mem_filter.1 hb).2
  · intro a ha b hb
    have ha := (List.mem_filter.1 ha).2
    rcases List.mem_cons.1 hb with rfl | hb
    · exact flip ha
    · have hb : lt b.1 k = false := by simpa using (List.mem_filter.1 hb).2
      rcases ho.tri b.1 k with h1 | h1 | h1
      · rw [h1] at hb; cases hb
      · rw [h1]; exact flip ha
      · exact flip (ho.trans _ _ _ ha h1)

/-- The object holds the list. -/
def SkHolds (lt : κ → κ → Bool) (s : Skip κ δ) (l : List (κ × Option δ)) : Prop :=
  ∃ Ls, SkOk lt s Ls l ∧ Ls ≠ [] ∧ s.num = l.length ∧ SkSorted lt l

theorem skHolds_new (lt : κ → κ → Bool) : SkHolds lt (skNew : Skip κ δ) [] := by
  refine ⟨[_], addLevel_ok (Ls := []) (l := []) ⟨rfl, rfl, rfl, ?_, trivial, ?_, List.nodup_nil, ?_, rfl⟩ (fun _ => rfl), by simp, rfl, List.Pairwise.nil⟩
  · intro L hL; simp at hL
  · intro L hL; simp at hL
  · intro x hx; simp [nodesOf] at hx

theorem skStep_spec {lt : κ → κ → Bool} (ho : StrictTotal fun a b => lt a b = true) (extra : Nat) (s : Skip κ δ) (l : List (κ × Option δ))
    (op : SkOp κ δ) (h : SkHolds lt s l) :
    SkHolds lt (skStep lt extra s op).1 (skSpec lt l op).1 ∧ (skStep lt extra s op).2 = (skSpec lt l op).2 := by
  obtain ⟨Ls, hok, hne, hnum, hs⟩ := h
  have hf : s.fresh < s.fresh + 1 + extra := by omega
  cases op with
  | insert k d bits =>
    obtain ⟨s', Ls', e, h1, h2, h3⟩ := skInsert_spec ho hok hne k d bits hf
    have hadd : (skSpec lt l (.insert k d bits)).1 = skAdd lt k d l := by
      obtain ⟨e1, e2⟩ := sorted_split ho k hs
      show l.takeWhile _ ++ _ :: l.dropWhile _ = _
      rw [e1, e2]; rfl
    have e' : skStep lt extra s (.insert k d bits) = (s', .done) := by
      simp only [skStep]
      rw [show skInsert (fun a b => !lt a b) (s.fresh + 1 + extra) bits s k d = .ok s' from e]
    rw [e', hadd]
    refine ⟨⟨Ls', h1, h3, ?_, sorted_add ho hs⟩, rfl⟩
    rw [h2, hnum]
    have : l.length = (l.filter fun e => lt e.1 k).length + (l.filter fun e => !lt e.1 k).length := by
      clear hok hnum hs hadd h1 h2 e e'
      induction l with
      | nil => rfl
      | cons a l ih => cases ha : lt a.1 k <;> simp [ha] <;> omega
    simp only [skAdd, List.length_append, List.length_cons]
    omega
  | search k =>
    have e := skSearch_spec ho hok hne k hf
    have e' : skStep lt extra s (.search k) = (s, .found (l.find? (fun e => decide (e.1 = k))).isSome) := by
      simp only [skStep]
      rw [show skSearch (fun a b => !lt a b) (s.fresh + 1 + extra) s k = _ from e]
    rw [e']
    refine ⟨⟨Ls, hok, hne, hnum, hs⟩, ?_⟩
    simp only [skSpec]
    congr 1
    rw [Bool.eq_iff_iff, List.find?_isSome, List.any_eq_true]
  | extract k =>
    have e := skExtract_spec ho hok hne hnum k hf
    cases hfd : l.find? (fun e => decide (e.1 = k)) with
    | none =>
      rw [hfd] at e
      have e' : skStep lt extra s (.extract k) = (s, .raised .keyError) := by
        simp only [skStep]
        rw [show skExtract (fun a b => !lt a b) (s.fresh + 1 + extra) s k = _ from e]
      rw [e']
      simp only [skSpec, hfd]
      exact ⟨⟨Ls, hok, hne, hnum, hs⟩, trivial⟩
    | some p =>
      rw [hfd] at e
      obtain ⟨s', Ls', e, h1, h2, h3⟩ := e
      have e' : skStep lt extra s (.extract k) = (s', .node p.1 p.2) := by
        simp only [skStep]
        rw [show skExtract (fun a b => !lt a b) (s.fresh + 1 + extra) s k = _ from e]
      rw [e']
      simp only [skSpec, hfd]
      exact ⟨⟨Ls', h1, h2, h3, hs.sublist List.eraseP_sublist⟩, trivial⟩
  | size => exact ⟨⟨Ls, hok, hne, hnum, hs⟩, by simp [skStep, skSpec, hnum]⟩

/-- **C43.** For every history of calls, every outcome of the random bits of every insertion and every number of extra iterations, the
skip list answers exactly as the sorted list does; in particular `extract` raises `KeyError` exactly when the key is missing, and no
other exception is ever raised. -/
theorem C43_skip_list {lt : κ → κ → Bool} (ho : StrictTotal fun a b => lt a b = true) (extra : Nat) (ops : List (SkOp κ δ)) :
    trace (skStep lt extra) (skNew : Skip κ δ) ops = trace (skSpec lt) [] ops :=
  (trace_eq (SkHolds lt) (fun s l op h => skStep_spec ho extra s l op h) ops _ _ (skHolds_new lt)).1

/-- The same calls with other random bits. -/
def skErase : SkOp κ δ → SkOp κ δ
  | .insert k d _ => .insert k d (fun _ => false)
  | op => op

/-- **C43, the random bits cannot be observed.** Two histories that differ only in the random bits give the same answers. -/
theorem C43_random_bits {lt : κ → κ → Bool} (ho : StrictTotal fun a b => lt a b = true) (extra : Nat) (ops ops' : List (SkOp κ δ))
    (h : ops.map skErase = ops'.map skErase) :
    trace (skStep lt extra) (skNew : Skip κ δ) ops = trace (skStep lt extra) skNew ops' := by
  rw [C43_skip_list ho, C43_skip_list ho]
  have key : ∀ (ops : List (SkOp κ δ)) (l : List (κ × Option δ)), trace (skSpec lt) l ops = trace (skSpec lt) l (ops.map skErase) := by
    intro ops
    induction ops with
    | nil => intro l; rfl
    | cons op ops ih =>
      intro l
      have : skSpec lt l (skErase op) = skSpec lt l op := by cases op <;> rfl
      simp only [List.map_cons, trace, this]
      rw [ih]
  rw [key ops, key ops', h]

/-- **C43, a missing key.** After any history, `extract` of a key that is not there raises `KeyError` and leaves the object unchanged. -/
theorem C43_missing {lt : κ → κ → Bool} (ho : StrictTotal fun a b => lt a b = true) (extra : Nat) (ops : List (SkOp κ δ)) (k : κ)
    (hk : ∀ e ∈ final (skSpec lt) [] ops, e.1 ≠ k) :
    skStep lt extra (final (skStep lt extra) (skNew : Skip κ δ) ops) (.extract k)
      = (final (skStep lt extra) skNew ops, .raised .keyError) := by
  obtain ⟨Ls, hok, hne, hnum, hs⟩ := (trace_eq (SkHolds lt) (fun s l op h => skStep_spec ho extra s l op h) ops _ _ (skHolds_new lt)).2
  have e := skExtract_spec ho hok hne hnum k (fuel := (final (skStep lt extra) (skNew : Skip κ δ) ops).fresh + 1 + extra) (by omega)
  rw [List.find?_eq_none.2 (fun e he => by simpa using hk e he)] at e
  simp only [skStep]
  rw [show skExtract (fun a b => !lt a b) _ _ k = _ from e]

/-- The pairs read along `next` up to the sentinel at the end. -/
def skRow (s : Skip κ δ) : Nat → Option Nat → List (κ × Option δ)
  | 0, _ => []
  | _ + 1, none => []
  | n + 1, some i =>
    match s.key i with
    | .key k => (k, s.data i) :: skRow s n (s.next i)
    | _ => []

/-- The head sentinel of the lowest row: `down` from `head` as long as possible. -/
def skFoot (s : Skip κ δ) : Nat → Nat → Nat
  | 0, i => i
  | n + 1, i =>
    match s.down i with
    | some j => skFoot s n j
    | none => i

theorem skFoot_spec {lt : κ → κ → Bool} {s : Skip κ δ} : ∀ (Ls : List SkLevel) (L C : SkLevel) (n : Nat), Overs s (L :: Ls) →
    (L :: Ls).getLast? = some C → Ground s C → Ls.length ≤ n → skFoot s n L.h = C.h
  | [], L, C, n, _, hC, hG, _ => by
    simp only [List.getLast?_singleton, Option.some.injEq] at hC
    subst hC
    cases n with
    | zero => rfl
    | succ n => simp [skFoot, hG.h]
  | M :: Ls, L, C, n, ho, hC, hG, hn => by
    cases n with
    | zero => simp at hn
    | succ n =>
      simp only [skFoot, ho.1.h]
      exact skFoot_spec (lt := lt) Ls M C n ho.2 (by simpa using hC) hG (by simpa using hn)

theorem skRow_spec {s : Skip κ δ} : ∀ (xs : List Nat) (a t : Nat) (l : List (κ × Option δ)) (n : Nat), NextChain s.next a xs t → s.key t = .high →
    xs.map (fun x => (s.key x, s.data x)) = l.map (fun e => (SKey.key e.1, e.2)) → xs.length < n → skRow s n (s.next a) = l
  | [], a, t, l, n, hc, ht, hl, hn => by
    obtain ⟨m, rfl⟩ : ∃ m, n = m + 1 := ⟨n - 1, by omega⟩
    have hc : s.next a = some t := hc
    have : l = [] := by simpa using hl.symm
    simp [skRow, hc, ht, this]
  | x :: xs, a, t, l, n, hc, ht, hl, hn => by
    obtain ⟨m, rfl⟩ : ∃ m, n = m + 1 := ⟨n - 1, by omega⟩
    cases l with
    | nil => simp at hl
    | cons e l =>
      simp only [List.map_cons, List.cons.injEq, Prod.mk.injEq] at hl
      obtain ⟨⟨h1, h2⟩, h3⟩ := hl
      rw [hc.1]
      simp only [skRow, h1, h2]
      rw [skRow_spec xs x t l m hc.2 ht h3 (by simpa using hn)]

/-- **C43, in order.** After every history the lowest row of the list, read from left to right, is the list of the specification, and it is sorted by
key. The row is the one reached from `head` along `down`. -/
theorem C43_sorted {lt : κ → κ → Bool} (ho : StrictTotal fun a b => lt a b = true) (extra : Nat) (ops : List (SkOp κ δ)) :
    let s := final (skStep lt extra) (skNew : Skip κ δ) ops
    ∃ h, s.head = some h ∧
      skRow s (s.fresh + 1) (s.next (skFoot s s.levels h)) = final (skSpec lt) [] ops ∧
      SkSorted lt (final (skSpec lt) ([] : List (κ × Option δ)) ops) := by
  intro s
  obtain ⟨Ls, hok, hne, hnum, hs⟩ := (trace_eq (SkHolds lt) (fun s l op h => skStep_spec ho extra s l op h) ops _ _ (skHolds_new (δ := δ) lt)).2
  cases Ls with
  | nil => exact absurd rfl hne
  | cons L Ls =>
    obtain ⟨C, hC⟩ : ∃ C, (L :: Ls).getLast? = some C := ⟨_, List.getLast?_eq_some_getLast (by simp)⟩
    have hmem : C ∈ L :: Ls := List.mem_of_getLast? hC
    refine ⟨L.h, hok.head, ?_, hs⟩
    have e : skFoot s s.levels L.h = C.h := skFoot_spec (lt := lt) Ls L C s.levels hok.overs hC (hok.ground C hC) (by
      have := hok.levels
      simp only [List.length_cons] at this
      show Ls.length ≤ s.levels
      have : s.levels = Ls.length + 1 := this
      omega)
    rw [e]
    have hc := hok.content
    simp only [bottomBody, hC] at hc
    refine skRow_spec C.body C.h C.t _ _ (hok.ok C hmem).chain (hok.ok C hmem).high hc ?_
    have h4 := nodup_length_le (b := List.range s.fresh) hok.nodup (fun x hx => List.mem_range.2 (hok.fresh x hx))
    simp only [List.length_range] at h4
    have h5 : C.body.length ≤ (nodesOf (L :: Ls)).length := by
      have : C.body.Sublist (nodesOf (L :: Ls)) := by
        obtain ⟨A, hA⟩ := bottom_split (Ls := L :: Ls) (by simp)
        obtain ⟨C', hA⟩ := hA
        rw [hA] at hC ⊢
        simp only [List.getLast?_append, List.getLast?_singleton, Option.some_or, Option.some.injEq] at hC
        subst hC
        rw [nodesOf_append]
        refine List.Sublist.trans ?_ (List.sublist_append_right _ _)
        simp [nodesOf, SkLevel.ids]
      exact this.length_le
    omega

/-- A history with equal keys, three levels and a missing key, computed by the model. -/
example : trace (skStep (fun a b => decide (a < b)) 0) (skNew : Skip Nat Nat)
    [.insert 5 (some 50) (fun _ => true), .insert 3 (some 30) (fun _ => false), .insert 5 (some 51) (fun i => i = 1), .search 5, .search 4,
      .extract 5, .extract 5, .extract 5, .search 3, .size, .extract 3, .size]
    = [.done, .done, .done, .found true, .found false, .node 5 (some 51), .node 5 (some 50), .raised .keyError, .found true, .count 1,
      .node 3 (some 30), .count 0] := by decide +kernel

/-- The hypothesis of `C43_missing` is met by a non-empty list. -/
example : ∀ e ∈ final (skSpec (δ := Nat) fun a b : Nat => decide (a < b)) [] [.insert 5 none (fun _ => true), .insert 3 none (fun _ => false)], e.1 ≠ 4 := by
  decide +kernel

end Props
