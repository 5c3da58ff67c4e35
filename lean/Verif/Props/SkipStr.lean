import Verif.Props.SkipList
import Verif.Model.SkipStr
import Verif.Lemmas.Bind

/-!
# C141: the levels of a skip list and the text that shows them

`str` shows one line per level, the highest first. Every element has a column. The line of a level shows, in the column of an element, the node of that
level with its key, or `None`.
-/
namespace Props
open Py Model Spec
set_option linter.unusedSectionVars false
variable {κ δ : Type} [DecidableEq κ]

/-! ## Specification -/

/-- The cells of one line: `ks` are the keys of the level, `low` says that it is the lowest one; only there the nodes have data. The columns belong to
the elements of the list; of the elements with the same key only the last one has a column that is used. -/
def skCells (shw : κ → Option δ → String) (low : Bool) (ks : List κ) : List (κ × Option δ) → List String
  | [] => []
  | e :: l => (if e.1 ∈ ks ∧ ∀ e' ∈ l, e'.1 ≠ e.1 then shw e.1 (if low then e.2 else none) else "None") :: skCells shw low ks l

/-- The lines, for the keys of the levels from the highest to the lowest. -/
def skLines (shw : κ → Option δ → String) (l : List (κ × Option δ)) : List (List κ) → List (List String)
  | [] => []
  | [r] => [skCells shw true r l]
  | r :: q :: rs => skCells shw false r l :: skLines shw l (q :: rs)

/-- Every cell is followed by a space and every line by a line break; nothing is printed for an empty list. -/
def skShown (shw : κ → Option δ → String) (l : List (κ × Option δ)) (rows : List (List κ)) : String :=
  if l = [] then "" else String.join ((skLines shw l rows).map fun cells => String.join (cells.map fun c => c ++ " ") ++ "\n")

/-- The keys of the levels from the highest to the lowest: the lowest has them all, each level has some of those below it, and only the lowest may
be empty. -/
structure SkLadder (rows : List (List κ)) (l : List (κ × Option δ)) : Prop where
  lowest : rows.getLast? = some (l.map (·.1))
  thinner : ∀ i a b, rows[i]? = some a → rows[i + 1]? = some b → a.Sublist b
  highest : rows.length = 1 ∨ ∀ a, rows.head? = some a → a ≠ []

/-- The number of insertions in a history. -/
def skInsertions : List (SkOp κ δ) → Nat
  | [] => 0
  | .insert _ _ _ :: ops => skInsertions ops + 1
  | _ :: ops => skInsertions ops

/-! ## Proofs -/

/-- What insertions and extractions keep, besides the order: the sentinels at the end have no successor and nodes of upper levels have no data. -/
structure SkBase (s : Skip κ δ) : Prop where
  high : ∀ x, s.key x = .high → s.next x = none
  unborn : ∀ x, s.fresh ≤ x → s.next x = none
  bare : ∀ x, s.down x ≠ none → s.data x = none
  tail : ∀ t, s.tail = some t → t < s.fresh
  head : ∀ h, s.head = some h → h < s.fresh

/-- The highest level is not empty if there is another one. -/
def SkTop (s : Skip κ δ) : Prop := s.levels ≤ 1 ∨ ∀ h, s.head = some h → s.next h ≠ s.tail

/-- A node that may be given a successor. -/
def SkOpen (s : Skip κ δ) (x : Nat) : Prop := s.key x ≠ .high ∧ x < s.fresh

theorem SkBase.open_of {s : Skip κ δ} (h : SkBase s) {x : Nat} (hx : s.next x ≠ none) : SkOpen s x := by
  refine ⟨fun e => hx (h.high x e), ?_⟩
  apply Nat.lt_of_not_le
  exact fun e => hx (h.unborn x e)

theorem base_addLevel {s : Skip κ δ} (h : SkBase s) : SkBase (skAddLevel s) ∧ (∀ x, SkOpen s x → SkOpen (skAddLevel s) x) ∧
    (∀ g, (skAddLevel s).head = some g → SkOpen (skAddLevel s) g) := by
  refine ⟨⟨?_, ?_, ?_, ?_, ?_⟩, ?_, ?_⟩
  · intro x hx
    simp only [skAddLevel, skAlloc, skSet] at hx ⊢
    split at hx
    · cases hx
    · rename_i h1
      simp only [h1, if_false]
      split at hx
      · rename_i h2; simp [h2]
      · rename_i h2; simp [h2, h.high x hx]
  · intro x hx
    simp only [skAddLevel, skAlloc, skSet] at hx ⊢
    have h1 : x ≠ s.fresh + 1 := by omega
    have h2 : x ≠ s.fresh := by omega
    simp [h1, h2, h.unborn x (by omega)]
  · intro x hx
    simp only [skAddLevel, skAlloc, skSet] at hx ⊢
    split
    · rfl
    · rename_i h1
      simp only [h1, if_false] at hx
      split
      · rfl
      · rename_i h2
        simp only [h2, if_false] at hx
        exact h.bare x hx
  · intro t ht
    simp only [skAddLevel, skAlloc] at ht ⊢
    cases ht; omega
  · intro t ht
    simp only [skAddLevel, skAlloc] at ht ⊢
    cases ht; omega
  · intro x hx
    have := hx.2
    have h1 : x ≠ s.fresh + 1 := by omega
    have h2 : x ≠ s.fresh := by omega
    refine ⟨?_, ?_⟩
    · simp only [skAddLevel, skAlloc, skSet, h1, h2, if_false]; exact hx.1
    · show x < s.fresh + 1 + 1; omega
  · intro g hg
    simp only [skAddLevel, skAlloc] at hg
    cases hg
    refine ⟨by simp [skAddLevel, skAlloc, skSet], ?_⟩
    show s.fresh + 1 < s.fresh + 1 + 1; omega

/-- A node is put after `prev`. -/
theorem base_hang {s : Skip κ δ} (h : SkBase s) {k : κ} {d : Option δ} {dn : Option Nat} {prev : Nat} (hp : SkOpen s prev)
    (hd : dn ≠ none → d = none) :
    let s1 := skAlloc s (.key k) d (s.next prev) dn
    let s2 : Skip κ δ := { s1 with next := skSet s1.next prev (some s.fresh) }
    SkBase s2 ∧ (∀ x, SkOpen s x → SkOpen s2 x) ∧ (∀ g, s.head = some g → s.next g ≠ s.tail ∨ g = prev → s2.next g ≠ s2.tail) := by
  intro s1 s2
  have hl := hp.2
  refine ⟨⟨?_, ?_, ?_, ?_, ?_⟩, ?_, ?_⟩
  · intro x hx
    simp only [s2, s1, skAlloc, skSet] at hx ⊢
    split at hx
    · cases hx
    · rename_i h1
      have h2 : x ≠ prev := by rintro rfl; exact hp.1 hx
      simp [h1, h2, h.high x hx]
  · intro x hx
    simp only [s2, s1, skAlloc, skSet] at hx ⊢
    have h1 : x ≠ prev := by omega
    have h2 : x ≠ s.fresh := by omega
    simp [h1, h2, h.unborn x (by omega)]
  · intro x hx
    simp only [s2, s1, skAlloc, skSet] at hx ⊢
    split
    · rename_i h1
      simp only [h1, if_true] at hx
      exact hd hx
    · rename_i h1
      simp only [h1, if_false] at hx
      exact h.bare x hx
  · intro t htl
    have := h.tail t htl
    show t < s.fresh + 1
    omega
  · intro t htl
    have := h.head t htl
    show t < s.fresh + 1
    omega
  · intro x hx
    have := hx.2
    have h2 : x ≠ s.fresh := by omega
    refine ⟨?_, ?_⟩
    · simp only [s2, s1, skAlloc, skSet, h2, if_false]; exact hx.1
    · show x < s.fresh + 1; omega
  · intro g hg hq
    show (skSet s1.next prev (some s.fresh)) g ≠ s.tail
    simp only [s1, skAlloc, skSet]
    split
    · intro e
      have := h.tail s.fresh e.symm
      omega
    · have := h.head g hg
      rw [if_neg (by omega)]
      rcases hq with hq | hq
      · exact hq
      · rename_i h1; exact absurd hq h1

/-- The path of a search consists of nodes with a successor. -/
theorem path_open {ge : κ → κ → Bool} {s : Skip κ δ} (h : SkBase s) {k : κ} : ∀ (fuel : Nat) (o : Option Nat) (acc path : List Nat),
    (∀ x ∈ acc, SkOpen s x) → skSearchLoop ge s k fuel o acc = .ok path → ∀ x ∈ path, SkOpen s x
  | 0, _, _, _, _, e => nomatch e
  | _ + 1, none, acc, path, ha, e => by
    simp only [skSearchLoop] at e
    cases e
    exact ha
  | fuel + 1, some node, acc, path, ha, e => by
    simp only [skSearchLoop] at e
    cases en : s.next node with
    | none => rw [en] at e; cases e
    | some n =>
      rw [en] at e
      simp only [skRef, ok_bind] at e
      split at e
      · refine path_open h fuel _ _ path ?_ e
        intro x hx
        rcases List.mem_append.1 hx with hx | hx
        · exact ha x hx
        · rw [List.mem_singleton.1 hx]
          exact h.open_of (by rw [en]; simp)
      · exact path_open h fuel _ _ path ha e

theorem raise_more {flips : Nat → Bool} {k : κ} {path : List Nat} {total : Nat} : ∀ (rounds level below : Nat) (s s' : Skip κ δ), SkBase s → SkTop s →
    (∀ x ∈ path, SkOpen s x) → (s.levels = total ∨ total < level) → skRaise flips k path total rounds level below s = .ok s' →
    SkBase s' ∧ SkTop s' ∧ (total < level → s' = s) ∧ s.levels ≤ s'.levels ∧ s'.levels ≤ s.levels + 1
  | 0, _, _, s, s', hb, ht, _, _, e => by cases e; exact ⟨hb, ht, fun _ => rfl, Nat.le_refl _, Nat.le_succ _⟩
  | rounds + 1, level, below, s, s', hb, ht, hp, hl, e => by
    simp only [skRaise] at e
    split at e
    · rename_i hc
      simp only [Bool.and_eq_true, decide_eq_true_eq] at hc
      have hlv : s.levels = total := by omega
      split at e
      · rename_i hlt
        obtain ⟨b1, b2, b3⟩ := base_addLevel hb
        cases eh : (skAddLevel s).head with
        | none => rw [eh] at e; cases e
        | some g =>
          rw [eh] at e
          simp only [skRef, ok_bind] at e
          obtain ⟨c1, c2, c3⟩ := base_hang (k := k) (d := none) (dn := some below) b1 (b3 g eh) (fun _ => rfl)
          have hx := raise_more rounds (level + 1) _ _ s' c1 (.inr fun g' hg' => c3 g' hg' (.inr (by rw [show (skAddLevel s).head = some g' from hg'] at eh; exact Option.some.inj eh)))
            (fun x hx => c2 x (b2 x (hp x hx))) (.inr (by omega)) e
          obtain ⟨h1, h2, h3, _, _⟩ := hx
          have := h3 (by omega)
          refine ⟨h1, h2, fun h => by omega, ?_, ?_⟩
          · rw [this]; show s.levels ≤ s.levels + 1; omega
          · rw [this]; exact Nat.le_refl _
      · rename_i hlt
        cases er : rd path (total - 1 - level) with
        | error x => rw [er] at e; cases e
        | ok prev =>
          rw [er] at e
          simp only [ok_bind] at e
          have hm : prev ∈ path := by
            have := rd_eq_ok.1 er
            exact List.mem_of_getElem? this
          obtain ⟨c1, c2, c3⟩ := base_hang (k := k) (d := none) (dn := some below) hb (hp prev hm) (fun _ => rfl)
          have ht' : SkTop ({ skAlloc s (.key k) none (s.next prev) (some below) with next := skSet (skAlloc s (.key k) none (s.next prev) (some below)).next prev (some s.fresh) } : Skip κ δ) := by
            rcases ht with ht | ht
            · exact .inl ht
            · exact .inr fun g hg => c3 g hg (.inl (ht g hg))
          obtain ⟨h1, h2, _, h4, h5⟩ := raise_more rounds (level + 1) _ _ s' c1 ht' (fun x hx => c2 x (hp x hx)) (.inl hlv) e
          exact ⟨h1, h2, fun h => by omega, h4, h5⟩
    · cases e
      exact ⟨hb, ht, fun _ => rfl, Nat.le_refl _, Nat.le_succ _⟩

theorem insert_more {ge : κ → κ → Bool} {fuel : Nat} {flips : Nat → Bool} {s s' : Skip κ δ} {k : κ} {d : Option δ} (hb : SkBase s) (ht : SkTop s)
    (e : skInsert ge fuel flips s k d = .ok s') : SkBase s' ∧ SkTop s' ∧ s'.levels ≤ s.levels + 1 := by
  simp only [skInsert] at e
  obtain ⟨path, e1, e⟩ := bind_ok e
  obtain ⟨tip, e2, e⟩ := bind_ok e
  obtain ⟨s2, e3, e⟩ := bind_ok e
  cases e
  have hp := path_open hb fuel _ [] path (by simp) e1
  have hm : tip ∈ path := by
    simp only [skTip] at e2
    split at e2
    · rename_i i ei; cases e2; exact List.mem_of_getLast? ei
    · cases e2
  obtain ⟨c1, c2, c3⟩ := base_hang (k := k) (d := d) (dn := none) hb (hp tip hm) (fun h => absurd rfl h)
  have ht' : SkTop ({ skAlloc s (.key k) d (s.next tip) none with next := skSet (skAlloc s (.key k) d (s.next tip) none).next tip (some s.fresh) } : Skip κ δ) := by
    rcases ht with ht | ht
    · exact .inl ht
    · exact .inr fun g hg => c3 g hg (.inl (ht g hg))
  obtain ⟨h1, h2, _, _, h5⟩ := raise_more _ _ _ _ s2 c1 ht' (fun x hx => c2 x (hp x hx)) (.inl rfl) e3
  exact ⟨⟨h1.high, h1.unborn, h1.bare, h1.tail, h1.head⟩, h2, h5⟩

theorem unlink_more {k : κ} {path : List Nat} : ∀ (lv : Nat) (s s' : Skip κ δ), SkBase s → (∀ x ∈ path, SkOpen s x) →
    skUnlink k path lv s = .ok s' → SkBase s' ∧ s'.head = s.head ∧ s'.tail = s.tail ∧ s'.levels = s.levels ∧ s'.down = s.down ∧ s'.fresh = s.fresh
  | 0, s, s', hb, _, e => by cases e; exact ⟨hb, rfl, rfl, rfl, rfl, rfl⟩
  | lv + 1, s, s', hb, hp, e => by
    simp only [skUnlink] at e
    obtain ⟨p, e1, e⟩ := bind_ok e
    obtain ⟨n, e2, e⟩ := bind_ok e
    have hm : SkOpen s p := hp p (List.mem_of_getElem? (rd_eq_ok.1 e1))
    split at e
    · have hb' : SkBase ({ s with next := skSet s.next p (s.next n) } : Skip κ δ) := by
        refine ⟨fun x hx => ?_, fun x hx => ?_, hb.bare, hb.tail, hb.head⟩
        · have : x ≠ p := by rintro rfl; exact hm.1 hx
          simp only [skSet, this, if_false]; exact hb.high x hx
        · have h1 := hm.2
          have : x ≠ p := by have : s.fresh ≤ x := hx; omega
          simp only [skSet, this, if_false]; exact hb.unborn x hx
      obtain ⟨h1, h2, h3, h4, h5, h6⟩ := unlink_more lv _ s' hb' (fun x hx => hp x hx) e
      exact ⟨h1, h2, h3, h4, h5, h6⟩
    · cases e; exact ⟨hb, rfl, rfl, rfl, rfl, rfl⟩

/-- The loop that drops empty levels stops at a level that is not empty, or after the last one. -/
theorem trim_more : ∀ (fuel : Nat) (s s' : Skip κ δ), skTrim fuel s.head s = .ok s' →
    s'.key = s.key ∧ s'.next = s.next ∧ s'.down = s.down ∧ s'.data = s.data ∧ s'.fresh = s.fresh ∧ s'.levels ≤ s.levels ∧
      (∀ h, s'.head = some h → s'.next h ≠ s'.tail)
  | 0, _, _, e => nomatch e
  | fuel + 1, s, s', e => by
    cases eh : s.head with
    | none =>
      rw [eh] at e
      cases e
      exact ⟨rfl, rfl, rfl, rfl, rfl, Nat.le_refl _, fun h hh => by rw [eh] at hh; cases hh⟩
    | some w =>
      rw [eh] at e
      simp only [skTrim] at e
      split at e
      · obtain ⟨t, _, e⟩ := bind_ok e
        obtain ⟨h1, h2, h3, h4, h5, h6, h7⟩ := trim_more fuel { s with levels := s.levels - 1, head := s.down w, tail := s.down t } s' e
        exact ⟨h1, h2, h3, h4, h5, Nat.le_trans h6 (Nat.sub_le _ _), h7⟩
      · rename_i hne
        cases e
        exact ⟨rfl, rfl, rfl, rfl, rfl, Nat.le_refl _, fun h hh => by rw [eh] at hh; cases hh; exact hne⟩

theorem extract_more {ge : κ → κ → Bool} {fuel : Nat} {s s' : Skip κ δ} {k x : κ} {d : Option δ} (hb : SkBase s)
    (e : skExtract ge fuel s k = .ok (s', x, d)) (hh : ∀ g, s'.head = some g → g < s'.fresh) (htl : ∀ g, s'.tail = some g → g < s'.fresh)
    (hne : s'.head ≠ none) : SkBase s' ∧ SkTop s' ∧ s'.levels ≤ max 1 s.levels := by
  simp only [skExtract] at e
  obtain ⟨path, e1, e⟩ := bind_ok e
  obtain ⟨tip, e2, e⟩ := bind_ok e
  obtain ⟨n, e3, e⟩ := bind_ok e
  split at e
  · split at e
    · obtain ⟨s1, e4, e⟩ := bind_ok e
      obtain ⟨s2, e5, e⟩ := bind_ok e
      have e := Except.ok.inj e
      have e6 := (Prod.mk.inj e).1
      obtain ⟨b1, _, _, b4, _, _⟩ := unlink_more _ _ s1 hb (path_open hb fuel _ [] path (by simp) e1) e4
      obtain ⟨t1, t2, t3, t4, t5, t6, t7⟩ := trim_more _ s1 s2 e5
      split at e6
      · rename_i h0
        subst e6
        refine ⟨⟨?_, ?_, ?_, htl, hh⟩, .inl ?_, ?_⟩
        · intro y hy
          simp only [skAddLevel, skAlloc, skSet, t1, t2, t5] at hy ⊢
          split at hy
          · cases hy
          · rename_i q1
            simp only [q1, if_false]
            split at hy
            · rename_i q2; simp [q2]
            · rename_i q2; simp [q2, b1.high y hy]
        · intro y hy
          simp only [skAddLevel, skAlloc, skSet, t2, t5] at hy ⊢
          have h1 : y ≠ s1.fresh + 1 := by omega
          have h2 : y ≠ s1.fresh := by omega
          simp [h1, h2, b1.unborn y (by omega)]
        · intro y hy
          simp only [skAddLevel, skAlloc, skSet, t3, t4, t5] at hy ⊢
          split
          · rfl
          · rename_i q1
            simp only [q1, if_false] at hy
            split
            · rfl
            · rename_i q2
              simp only [q2, if_false] at hy
              exact b1.bare y hy
        · have : s2.levels = 0 := h0
          show s2.levels + 1 ≤ 1
          omega
        · have : s2.levels = 0 := h0
          show s2.levels + 1 ≤ _
          omega
      · subst e6
        refine ⟨⟨?_, ?_, ?_, htl, hh⟩, .inr t7, ?_⟩
        · intro y hy
          show s2.next y = none
          rw [t2]; exact b1.high y (by rw [← t1]; exact hy)
        · intro y hy
          show s2.next y = none
          rw [t2]; exact b1.unborn y (by rw [← t5]; exact hy)
        · intro y hy
          show s2.data y = none
          rw [t4]; exact b1.bare y (by rw [← t3]; exact hy)
        · show s2.levels ≤ _
          omega
    · cases e
  · cases e

theorem skNew_base : SkBase (skNew : Skip κ δ) ∧ SkTop (skNew : Skip κ δ) := by
  have : SkBase (⟨fun _ => .low, fun _ => none, fun _ => none, fun _ => none, 0, none, none, 0, 0⟩ : Skip κ δ) :=
    ⟨fun _ _ => rfl, fun _ _ => rfl, fun _ h => absurd rfl h, nofun, nofun⟩
  exact ⟨(base_addLevel this).1, .inl (Nat.le_refl _)⟩

theorem step_more {lt : κ → κ → Bool} (ho : StrictTotal fun a b => lt a b = true) (extra : Nat) {s : Skip κ δ} {l : List (κ × Option δ)} (op : SkOp κ δ)
    (h : SkHolds lt s l) (hb : SkBase s) (ht : SkTop s) :
    SkBase (skStep lt extra s op).1 ∧ SkTop (skStep lt extra s op).1 ∧ (skStep lt extra s op).1.levels ≤ s.levels + skInsertions [op] := by
  cases op with
  | search k => simp only [skStep]; split <;> exact ⟨hb, ht, Nat.le_add_right _ _⟩
  | size => exact ⟨hb, ht, Nat.le_add_right _ _⟩
  | insert k d bits =>
    simp only [skStep]
    split
    · rename_i s' e
      exact insert_more hb ht e
    · exact ⟨hb, ht, Nat.le_add_right _ _⟩
  | extract k =>
    have hs := (skStep_spec ho extra s l (.extract k) h).1
    simp only [skStep] at hs ⊢
    split
    · rename_i s' x d e
      rw [e] at hs
      obtain ⟨Ls', ok', hne', _⟩ := hs
      obtain ⟨Ls, ok, hne, _⟩ := h
      obtain ⟨L, Ls', rfl⟩ := List.exists_cons_of_ne_nil hne'
      have hL : ∀ x ∈ L.ids, x < s'.fresh := fun x hx => ok'.fresh x (mem_nodesOf.2 ⟨L, by simp, hx⟩)
      have h1 := ok.levels
      have h2 : Ls.length ≠ 0 := fun h => hne (List.length_eq_zero_iff.1 h)
      obtain ⟨c1, c2, c3⟩ := extract_more hb e (fun g hg => by
          have e1 : some L.h = some g := ok'.head.symm.trans hg
          cases e1; exact hL _ (by simp [SkLevel.ids])) (fun g hg => by
          have e1 : some L.t = some g := ok'.tail.symm.trans hg
          cases e1; exact hL _ (by simp [SkLevel.ids])) (by rw [ok'.head]; simp)
      refine ⟨c1, c2, ?_⟩
      show s'.levels ≤ s.levels + 0
      omega
    · exact ⟨hb, ht, Nat.le_add_right _ _⟩

theorem skInsertions_cons (op : SkOp κ δ) (ops : List (SkOp κ δ)) : skInsertions (op :: ops) = skInsertions [op] + skInsertions ops := by
  cases op <;> simp [skInsertions, Nat.add_comm]

theorem history_more {lt : κ → κ → Bool} (ho : StrictTotal fun a b => lt a b = true) (extra : Nat) : ∀ (ops : List (SkOp κ δ)) (s : Skip κ δ) (l : List (κ × Option δ)),
    SkHolds lt s l → SkBase s → SkTop s → SkHolds lt (final (skStep lt extra) s ops) (final (skSpec lt) l ops) ∧ SkBase (final (skStep lt extra) s ops) ∧
      SkTop (final (skStep lt extra) s ops) ∧ (final (skStep lt extra) s ops).levels ≤ s.levels + skInsertions ops
  | [], s, l, h, hb, ht => ⟨h, hb, ht, Nat.le_add_right _ _⟩
  | op :: ops, s, l, h, hb, ht => by
    obtain ⟨b1, b2, b3⟩ := step_more ho extra op h hb ht
    obtain ⟨c1, c2, c3, c4⟩ := history_more ho extra ops _ _ (skStep_spec ho extra s l op h).1 b1 b2
    refine ⟨c1, c2, c3, ?_⟩
    have : (final (skStep lt extra) s (op :: ops)).levels = (final (skStep lt extra) (skStep lt extra s op).1 ops).levels := rfl
    rw [this, skInsertions_cons]
    omega

/-! ### Keys and entries of a level -/

/-- The key of a node of a user. -/
def kof (s : Skip κ δ) (x : Nat) : Option κ :=
  match s.key x with
  | .key k => some k
  | _ => none

/-- The entries of some nodes. -/
def skEntriesOf (s : Skip κ δ) (xs : List Nat) : List (κ × Option δ) := xs.filterMap fun x => (kof s x).map fun k => (k, s.data x)

def skKeysOf (s : Skip κ δ) (xs : List Nat) : List κ := xs.filterMap (kof s)

theorem skEntriesOf_keys (s : Skip κ δ) : ∀ xs : List Nat, (skEntriesOf s xs).map (·.1) = skKeysOf s xs
  | [] => rfl
  | x :: xs => by
    have ih := skEntriesOf_keys s xs
    simp only [skEntriesOf, skKeysOf, List.filterMap_cons] at ih ⊢
    cases kof s x <;> simp [ih]

/-- The last position of a key. -/
def lastPos (k : κ) : List κ → Option Nat
  | [] => none
  | k' :: l =>
    match lastPos k l with
    | some j => some (j + 1)
    | none => if k' = k then some 0 else none

theorem lastPos_mem {k : κ} : ∀ {ks : List κ}, k ∈ ks → ∃ j, lastPos k ks = some j ∧ j < ks.length
  | k' :: ks, h => by
    simp only [lastPos]
    cases e : lastPos k ks with
    | some j =>
      have hm : k ∈ ks ∨ k ∉ ks := Decidable.em _
      rcases hm with hm | hm
      · obtain ⟨j', e', hj⟩ := lastPos_mem hm
        rw [e] at e'
        cases e'
        exact ⟨j + 1, rfl, by simp; omega⟩
      · exfalso
        clear h
        induction ks generalizing j with
        | nil => simp [lastPos] at e
        | cons a ks ih =>
          simp only [lastPos] at e
          simp only [List.mem_cons, not_or] at hm
          cases e2 : lastPos k ks with
          | some j2 => exact ih j2 e2 hm.2
          | none =>
            rw [e2] at e
            simp [Ne.symm hm.1] at e
    | none =>
      rcases List.mem_cons.1 h with rfl | hm
      · exact ⟨0, by simp, by simp⟩
      · obtain ⟨j', e', _⟩ := lastPos_mem hm
        rw [e] at e'; cases e'

theorem lastPos_none {k : κ} : ∀ {ks : List κ}, k ∉ ks → lastPos k ks = none
  | [], _ => rfl
  | a :: ks, h => by
    simp only [List.mem_cons, not_or] at h
    simp [lastPos, lastPos_none h.2, Ne.symm h.1]

theorem lastPos_iff {k : κ} : ∀ {l : List (κ × Option δ)} {j : Nat}, lastPos k (l.map (·.1)) = some j ↔ ∃ e, l[j]? = some e ∧ e.1 = k ∧ ∀ e' ∈ l.drop (j + 1), e'.1 ≠ k
  | [], j => by simp [lastPos]
  | a :: l, j => by
    simp only [List.map_cons, lastPos]
    cases e : lastPos k (l.map (·.1)) with
    | some i =>
      obtain ⟨b, hb1, hb2, hb3⟩ := lastPos_iff.1 e
      constructor
      · intro h
        cases h
        exact ⟨b, hb1, hb2, hb3⟩
      · rintro ⟨b', h1, h2, h3⟩
        cases j with
        | zero =>
          exfalso
          exact h3 b (by simpa using List.mem_of_getElem? hb1) hb2
        | succ j =>
          have := lastPos_iff.2 (show ∃ e, l[j]? = some e ∧ e.1 = k ∧ ∀ e' ∈ l.drop (j + 1), e'.1 ≠ k from ⟨b', by simpa using h1, h2, by simpa using h3⟩)
          rw [e] at this
          cases this
          rfl
    | none =>
      have hn : ∀ e' ∈ l, e'.1 ≠ k := by
        intro e' he hk
        obtain ⟨i, h1, _⟩ := lastPos_mem (k := k) (ks := l.map (·.1)) (List.mem_map.2 ⟨e', he, hk⟩)
        rw [e] at h1; cases h1
      constructor
      · intro h
        dsimp only at h
        split at h
        · rename_i hak
          cases h
          exact ⟨a, rfl, hak, by simpa using hn⟩
        · cases h
      · rintro ⟨b', h1, h2, h3⟩
        cases j with
        | zero =>
          cases h1
          simp [h2]
        | succ j =>
          exact absurd h2 (hn b' (List.mem_of_getElem? (by simpa using h1)))

/-! ### The first pass -/

theorem kof_key {s : Skip κ δ} {x : Nat} {k : κ} (h : s.key x = .key k) : kof s x = some k := by simp [kof, h]

theorem scanRow_run {s : Skip κ δ} {low : Bool} {lvl : Int} : ∀ (xs : List Nat) (a t : Nat) (c : Int) (seen : SkSeen κ) (fuel : Nat), NextChain s.next a xs t →
    s.next t = none → s.key t = .high → (∀ x ∈ xs, ∃ k, s.key x = .key k) → xs.length + 2 ≤ fuel →
    ∃ seen', skScanRow s low lvl fuel (s.next a) c seen = .ok seen' ∧ (∀ i, seen'.row.val i = if i ∈ xs then some lvl else seen.row.val i) ∧
      (low = false → seen'.col = seen.col) ∧
      (low = true → ∀ k, seen'.col.val k = match lastPos k (skKeysOf s xs) with | some j => some (c + j) | none => seen.col.val k)
  | [], a, t, c, seen, fuel, hc, ht, hk, _, hf => by
    obtain ⟨m, rfl⟩ : ∃ m, fuel = m + 2 := ⟨fuel - 2, by simp at hf; omega⟩
    have hc : s.next a = some t := hc
    refine ⟨seen, ?_, fun i => by simp, fun _ => rfl, fun _ k => by simp [skKeysOf, lastPos]⟩
    rw [hc]
    simp only [skScanRow, hk, ht]
  | x :: xs, a, t, c, seen, fuel, hc, ht, hk, hx, hf => by
    obtain ⟨m, rfl⟩ : ∃ m, fuel = m + 1 := ⟨fuel - 1, by simp at hf; omega⟩
    obtain ⟨k, ek⟩ := hx x (by simp)
    obtain ⟨seen', h1, h2, h3, h4⟩ := scanRow_run xs x t (c + 1) ⟨seen.row.set x lvl, if low then seen.col.set k c else seen.col⟩ m hc.2 ht hk
      (fun y hy => hx y (List.mem_cons_of_mem _ hy)) (by simp at hf; omega)
    refine ⟨seen', ?_, fun i => ?_, fun hl => ?_, fun hl k' => ?_⟩
    · rw [hc.1]
      simp only [skScanRow, ek]
      exact h1
    · rw [h2 i]
      by_cases hi : i ∈ xs
      · simp [hi]
      · by_cases hix : i = x
        · simp [hi, hix, PyDict.set]
        · simp [hi, hix, PyDict.set]
    · rw [h3 hl, hl]; rfl
    · rw [h4 hl k', hl]
      simp only [skKeysOf, List.filterMap_cons, kof_key ek, lastPos]
      cases e : lastPos k' (xs.filterMap (kof s)) with
      | some j => simp only [Option.some.injEq]; omega
      | none =>
        by_cases hkk : k = k'
        · simp [hkk, PyDict.set]
        · simp [hkk, Ne.symm hkk, PyDict.set]

/-- The row noted for a node. -/
def rowOf : List SkLevel → Nat → Option Int
  | [], _ => none
  | L :: Ls, i =>
    match rowOf Ls i with
    | some r => some r
    | none => if i ∈ L.body then some (Ls.length : Int) else none

theorem rowOf_none : ∀ {Ls : List SkLevel} {i : Nat}, (∀ L ∈ Ls, i ∉ L.body) → rowOf Ls i = none
  | [], _, _ => rfl
  | L :: Ls, i, h => by
    simp only [rowOf, rowOf_none (fun M hM => h M (List.mem_cons_of_mem _ hM))]
    simp [h L (by simp)]

theorem rowOf_some {A B : List SkLevel} {M : SkLevel} {i : Nat} (hi : i ∈ M.body) (hn : ∀ L ∈ B, i ∉ L.body) : rowOf (A ++ M :: B) i = some (B.length : Int) := by
  induction A with
  | nil => simp [rowOf, rowOf_none hn, hi]
  | cons L A ih => simp [rowOf, ih]

theorem scan_run {lt : κ → κ → Bool} {s : Skip κ δ} {inner : Nat} : ∀ (Ls : List SkLevel) (L C : SkLevel) (seen : SkSeen κ) (fuel : Nat),
    (∀ M ∈ L :: Ls, LevelOk lt s M ∧ s.next M.t = none ∧ M.body.length + 3 ≤ inner) → Overs s (L :: Ls) → (L :: Ls).getLast? = some C → Ground s C → Ls.length + 2 ≤ fuel →
    ∃ seen', skScan s inner fuel (some L.h) (Ls.length : Int) seen = .ok seen' ∧
      (∀ i, seen'.row.val i = match rowOf (L :: Ls) i with | some r => some r | none => seen.row.val i) ∧
      (∀ k, seen'.col.val k = match lastPos k (skKeysOf s C.body) with | some j => some (j : Int) | none => seen.col.val k)
  | Ls, L, C, seen, fuel, hok, hov, hC, hG, hf => by
    obtain ⟨m, rfl⟩ : ∃ m, fuel = m + 1 := ⟨fuel - 1, by omega⟩
    obtain ⟨hL, hLt, hLi⟩ := hok L (by simp)
    obtain ⟨q, hq⟩ : ∃ q, inner = q + 1 := ⟨inner - 1, by omega⟩
    obtain ⟨s1, h1, h2, h3, h4⟩ := scanRow_run (low := (s.down L.h).isNone) (lvl := (Ls.length : Int)) L.body L.h L.t 0 seen q hL.chain hLt hL.high hL.keyed (by omega)
    have e1 : skScanRow s (s.down L.h).isNone (Ls.length : Int) inner (some L.h) 0 seen = .ok s1 := by
      rw [hq]
      simp only [skScanRow, hL.low]
      exact h1
    cases Ls with
    | nil =>
      simp only [List.getLast?_singleton, Option.some.injEq] at hC
      subst hC
      obtain ⟨p, rfl⟩ : ∃ p, m = p + 1 := ⟨m - 1, by simp at hf; omega⟩
      refine ⟨s1, ?_, fun i => ?_, fun k => ?_⟩
      · simp only [skScan]
        rw [e1, ok_bind, hG.h]
        rfl
      · rw [h2 i]
        by_cases hi : i ∈ L.body <;> simp [rowOf, hi]
      · rw [h4 (by rw [hG.h]; rfl) k]
        cases lastPos k (skKeysOf s L.body) <;> simp
    | cons M Ls =>
      have hO := hov.1
      obtain ⟨s2, g1, g2, g3⟩ := scan_run Ls M C s1 m (fun N hN => hok N (List.mem_cons_of_mem _ hN)) hov.2 (by simpa using hC) hG (by simp at hf; omega)
      refine ⟨s2, ?_, fun i => ?_, fun k => ?_⟩
      · simp only [skScan]
        rw [e1, ok_bind, hO.h]
        have : (((M :: Ls).length : Nat) : Int) - 1 = (Ls.length : Int) := by simp
        rw [this]
        exact g1
      · rw [g2 i, h2 i]
        have : rowOf (L :: M :: Ls) i = match rowOf (M :: Ls) i with | some r => some r | none => if i ∈ L.body then some ((M :: Ls).length : Int) else none := rfl
        rw [this]
        cases rowOf (M :: Ls) i with
        | some r => rfl
        | none => by_cases hi : i ∈ L.body <;> simp [hi]
      · rw [g3 k, h3 (by rw [hO.h]; rfl)]

/-! ### The second pass -/

/-- The texts of some entries are put into their columns. -/
def placeE (shw : κ → Option δ → String) (pos : κ → Option Nat) (cells : List String) (es : List (κ × Option δ)) : List String :=
  es.foldl (fun cells e => match pos e.1 with | some j => cells.set j (shw e.1 e.2) | none => cells) cells

theorem placeE_length {shw : κ → Option δ → String} {pos : κ → Option Nat} : ∀ {es : List (κ × Option δ)} {cells : List String}, (placeE shw pos cells es).length = cells.length
  | [], _ => rfl
  | e :: es, cells => by
    simp only [placeE, List.foldl_cons]
    refine (placeE_length (shw := shw) (pos := pos) (es := es)).trans ?_
    split <;> simp

theorem placeE_get {shw : κ → Option δ → String} {pos : κ → Option Nat} {cells : List String} {j : Nat} : ∀ {es : List (κ × Option δ)}, j < cells.length →
    (placeE shw pos cells es)[j]? = match (es.filter fun e => decide (pos e.1 = some j)).getLast? with | some e => some (shw e.1 e.2) | none => cells[j]? := by
  intro es hj
  induction h : es.length generalizing es with
  | zero => rw [List.length_eq_zero_iff] at h; subst h; rfl
  | succ n ih =>
    have hne : es ≠ [] := by rintro rfl; simp at h
    obtain ⟨es', e, rfl⟩ : ∃ es' e, es = es' ++ [e] := ⟨es.dropLast, es.getLast hne, (List.dropLast_concat_getLast hne).symm⟩
    have ih := ih (es := es') (by simpa using h)
    have hl : (placeE shw pos cells es').length = cells.length := placeE_length
    have e1 : placeE shw pos cells (es' ++ [e]) = match pos e.1 with | some j => (placeE shw pos cells es').set j (shw e.1 e.2) | none => placeE shw pos cells es' := by
      simp [placeE, List.foldl_append]
    rw [e1, List.filter_append]
    cases ep : pos e.1 with
    | none => simpa [ep] using ih
    | some i =>
      by_cases hij : i = j
      · subst hij
        simp [ep, hl, hj]
      · have : (List.filter (fun e => decide (pos e.1 = some j)) [e]) = [] := by simp [ep, hij]
        rw [this, List.append_nil, ← ih]
        simp [List.getElem?_set_ne hij]

theorem matPut_run {m : List (List String)} {r j : Nat} {cells : List String} {text : String} (h : m[r]? = some cells) (hj : j < cells.length) :
    matPut m (r : Int) (j : Int) text = .ok (m.set r (cells.set j text)) := by
  have hr : r < m.length := (List.getElem?_eq_some_iff.1 h).1
  have e1 : listIndex m.length (r : Int) = some r := by simp [listIndex, hr]
  have e2 : listIndex cells.length (j : Int) = some j := by simp [listIndex, hj]
  simp only [matPut, e1, rd_of_some h, ok_bind, e2]

theorem placeRow_run {shw : κ → Option δ → String} {s : Skip κ δ} {seen : SkSeen κ} {pos : κ → Option Nat} {r : Nat} :
    ∀ (xs : List Nat) (a t : Nat) (m : List (List String)) (cells : List String) (fuel : Nat), NextChain s.next a xs t →
    s.next t = none → seen.row.val t = none →
    (∀ x ∈ xs, seen.row.val x = some (r : Int) ∧ ∃ k j, s.key x = .key k ∧ seen.col.val k = some ((j : Nat) : Int) ∧ pos k = some j ∧ j < cells.length) →
    m[r]? = some cells → xs.length + 2 ≤ fuel →
    skPlaceRow shw s seen fuel (s.next a) m = .ok (m.set r (placeE shw pos cells (skEntriesOf s xs)))
  | [], a, t, m, cells, fuel, hc, ht, htr, _, hm, hf => by
    obtain ⟨p, rfl⟩ : ∃ p, fuel = p + 2 := ⟨fuel - 2, by simp at hf; omega⟩
    have hc : s.next a = some t := hc
    have : m.set r cells = m := by
      obtain ⟨h1, h2⟩ := List.getElem?_eq_some_iff.1 hm
      rw [← h2]; exact List.set_getElem_self h1
    rw [hc]
    simp only [skPlaceRow, htr, ht, skEntriesOf, List.filterMap_nil, placeE, List.foldl_nil, this]
  | x :: xs, a, t, m, cells, fuel, hc, ht, htr, hx, hm, hf => by
    obtain ⟨p, rfl⟩ : ∃ p, fuel = p + 1 := ⟨fuel - 1, by simp at hf; omega⟩
    obtain ⟨hr, k, j, ek, ec, ep, hj⟩ := hx x (by simp)
    have hrl : r < m.length := (List.getElem?_eq_some_iff.1 hm).1
    have ih := placeRow_run (shw := shw) (s := s) (seen := seen) (pos := pos) (r := r) xs x t (m.set r (cells.set j (shw k (s.data x)))) (cells.set j (shw k (s.data x))) p hc.2 ht htr
      (fun y hy => by simpa using hx y (List.mem_cons_of_mem _ hy)) (by simp [hrl]) (by simp at hf; omega)
    rw [hc.1]
    simp only [skPlaceRow, hr, ek, PyDict.get, ec, ok_bind]
    rw [matPut_run hm hj, ok_bind, ih, List.set_set]
    congr 2
    simp [skEntriesOf, kof_key ek, placeE, ep]

theorem place_run {lt : κ → κ → Bool} {shw : κ → Option δ → String} {s : Skip κ δ} {seen : SkSeen κ} {pos : κ → Option Nat} {inner : Nat} {base : List String} :
    ∀ (Ls : List SkLevel) (L C : SkLevel) (fuel : Nat) (rest : List (List String)),
    (∀ M ∈ L :: Ls, LevelOk lt s M ∧ s.next M.t = none ∧ M.body.length + 3 ≤ inner ∧ seen.row.val M.t = none ∧ seen.row.val M.h = none) → Overs s (L :: Ls) →
    (L :: Ls).getLast? = some C → Ground s C → Ls.length + 2 ≤ fuel →
    (∀ A M B, L :: Ls = A ++ M :: B → ∀ x ∈ M.body, seen.row.val x = some (B.length : Int)) →
    (∀ M ∈ L :: Ls, ∀ x ∈ M.body, ∃ k j, s.key x = .key k ∧ seen.col.val k = some ((j : Nat) : Int) ∧ pos k = some j ∧ j < base.length) →
    skPlace shw s seen inner fuel (some L.h) (List.replicate (Ls.length + 1) base ++ rest)
      = .ok (((L :: Ls).map fun M => placeE shw pos base (skEntriesOf s M.body)).reverse ++ rest)
  | Ls, L, C, fuel, rest, hok, hov, hC, hG, hf, hrow, hcol => by
    obtain ⟨m, rfl⟩ : ∃ m, fuel = m + 1 := ⟨fuel - 1, by omega⟩
    obtain ⟨hL, hLt, hLi, hrt, hrh⟩ := hok L (by simp)
    obtain ⟨q, hq⟩ : ∃ q, inner = q + 1 := ⟨inner - 1, by omega⟩
    have hget : (List.replicate (Ls.length + 1) base ++ rest)[Ls.length]? = some base := by
      rw [List.getElem?_append_left (by simp)]
      simp
    have h1 := placeRow_run (shw := shw) (s := s) (seen := seen) (pos := pos) (r := Ls.length) L.body L.h L.t (List.replicate (Ls.length + 1) base ++ rest) base q hL.chain hLt hrt
      (fun x hx => ⟨hrow [] L Ls rfl x hx, hcol L (by simp) x hx⟩) hget (by omega)
    have e1 : skPlaceRow shw s seen inner (some L.h) (List.replicate (Ls.length + 1) base ++ rest)
        = .ok (List.replicate Ls.length base ++ (placeE shw pos base (skEntriesOf s L.body) :: rest)) := by
      rw [hq]
      simp only [skPlaceRow, hrh]
      rw [h1]
      congr 1
      rw [List.replicate_succ', List.append_assoc, List.set_append_right _ _ (by simp)]
      simp
    cases Ls with
    | nil =>
      simp only [List.getLast?_singleton, Option.some.injEq] at hC
      subst hC
      obtain ⟨p, rfl⟩ : ∃ p, m = p + 1 := ⟨m - 1, by simp at hf; omega⟩
      simp only [skPlace]
      rw [e1, ok_bind, hG.h]
      rfl
    | cons M Ls =>
      have hO := hov.1
      have ih := place_run (shw := shw) (s := s) (seen := seen) (pos := pos) (inner := inner) (base := base) Ls M C m (placeE shw pos base (skEntriesOf s L.body) :: rest)
        (fun N hN => hok N (List.mem_cons_of_mem _ hN)) hov.2 (by simpa using hC) hG (by simp at hf; omega)
        (fun A N B h => hrow (L :: A) N B (by rw [h]; rfl)) (fun N hN => hcol N (List.mem_cons_of_mem _ hN))
      simp only [skPlace]
      rw [e1, ok_bind, hO.h]
      refine ih.trans ?_
      simp


/-! ### The lines -/

theorem skCells_get {shw : κ → Option δ → String} {low : Bool} {ks : List κ} : ∀ {l : List (κ × Option δ)} {j : Nat},
    (skCells shw low ks l)[j]? = l[j]?.map fun e => if e.1 ∈ ks ∧ ∀ e' ∈ l.drop (j + 1), e'.1 ≠ e.1 then shw e.1 (if low then e.2 else none) else "None"
  | [], j => rfl
  | e :: l, 0 => rfl
  | e :: l, j + 1 => skCells_get (l := l) (j := j)

theorem placed_cells {shw : κ → Option δ → String} {low : Bool} {l es : List (κ × Option δ)} (hl : low = true → es = l) (hu : low = false → ∀ e ∈ es, e.2 = none) :
    placeE shw (fun k => lastPos k (l.map (·.1))) (List.replicate l.length "None") es = skCells shw low (es.map (·.1)) l := by
  apply List.ext_getElem?
  intro j
  rw [skCells_get]
  by_cases hj : j < l.length
  · rw [placeE_get (by simpa using hj)]
    obtain ⟨e0, he0⟩ : ∃ e0, l[j]? = some e0 := ⟨_, List.getElem?_eq_getElem hj⟩
    rw [he0]
    simp only [Option.map_some]
    by_cases hlast : ∀ e' ∈ l.drop (j + 1), e'.1 ≠ e0.1
    · have hfe : (es.filter fun e => decide (lastPos e.1 (l.map (·.1)) = some j)) = es.filter fun e => decide (e.1 = e0.1) := by
        refine List.filter_congr fun e _ => ?_
        simp only [decide_eq_decide]
        rw [lastPos_iff]
        constructor
        · rintro ⟨b, h1, h2, _⟩
          rw [he0] at h1; cases h1; exact h2.symm
        · intro h
          exact ⟨e0, he0, h.symm, by rw [h]; exact hlast⟩
      rw [hfe]
      by_cases hm : e0.1 ∈ es.map (·.1)
      · rw [if_pos ⟨hm, hlast⟩]
        cases hlow : low with
        | true =>
          have : l = l.take j ++ e0 :: l.drop (j + 1) := by
            have h1 := List.take_append_drop j l
            have h2 : l.drop j = e0 :: l.drop (j + 1) := by
              obtain ⟨h3, h4⟩ := List.getElem?_eq_some_iff.1 he0
              rw [List.drop_eq_getElem_cons h3, h4]
            rw [h2] at h1; exact h1.symm
          have hd : (l.drop (j + 1)).filter (fun e => decide (e.1 = e0.1)) = [] := List.filter_eq_nil_iff.2 fun e he => by simpa using hlast e he
          rw [hl hlow, this, List.filter_append, List.filter_cons_of_pos (by simp)]
          rw [← this, hd]
          simp
        | false =>
          cases eg : (es.filter fun e => decide (e.1 = e0.1)).getLast? with
          | none =>
            rw [List.getLast?_eq_none_iff, List.filter_eq_nil_iff] at eg
            obtain ⟨e, he, h⟩ := List.mem_map.1 hm
            exact absurd (by simpa using h) (eg e he)
          | some e =>
            have := List.mem_of_getLast? eg
            rw [List.mem_filter] at this
            simp only [decide_eq_true_eq] at this
            simp [this.2, hu hlow e this.1]
      · rw [if_neg (fun h => hm h.1)]
        have : (es.filter fun e => decide (e.1 = e0.1)) = [] := List.filter_eq_nil_iff.2 fun e he => by
          simp only [decide_eq_true_eq]
          exact fun h => hm (List.mem_map.2 ⟨e, he, h⟩)
        rw [this]
        simp [hj]
    · rw [if_neg (fun h => hlast h.2)]
      have : (es.filter fun e => decide (lastPos e.1 (l.map (·.1)) = some j)) = [] := List.filter_eq_nil_iff.2 fun e he => by
        simp only [decide_eq_true_eq]
        rw [lastPos_iff]
        rintro ⟨b, h1, h2, h3⟩
        rw [he0] at h1; cases h1
        rw [← h2] at h3
        exact hlast h3
      rw [this]
      simp [hj]
  · rw [List.getElem?_eq_none (by rw [placeE_length]; simpa using hj), List.getElem?_eq_none (by omega)]
    rfl

theorem foldl_text {β : Type} (f : β → String) : ∀ (cs : List β) (acc : String), cs.foldl (fun t c => t ++ f c) acc = acc ++ String.join (cs.map f)
  | [], acc => by simp [String.join]
  | c :: cs, acc => by
    have e1 := foldl_text f cs (acc ++ f c)
    have e2 : String.join ((c :: cs).map f) = f c ++ String.join (cs.map f) := by
      simp [String.join_cons]
    rw [List.foldl_cons, e1, e2, String.append_assoc]

theorem skText_eq {n : Nat} (hn : 0 < n) : ∀ (lines : List (List String)) (acc : String), (∀ l ∈ lines, l.length = n) →
    lines.foldl (fun text cells =>
      let text := cells.foldl (fun text cell => text ++ (cell ++ " ")) text
      if text.length > 0 then text ++ "\n" else text) acc = acc ++ String.join (lines.map fun cells => String.join (cells.map fun c => c ++ " ") ++ "\n")
  | [], acc, _ => by simp [String.join]
  | cells :: lines, acc, h => by
    rw [List.foldl_cons, skText_eq hn lines _ (fun l hl => h l (List.mem_cons_of_mem _ hl))]
    have h1 := foldl_text (fun c => c ++ " ") cells acc
    have hc := h cells (by simp)
    obtain ⟨c, cs, rfl⟩ : ∃ c cs, cells = c :: cs := by
      cases cells with
      | nil => simp at hc; omega
      | cons c cs => exact ⟨c, cs, rfl⟩
    have hpos : (acc ++ String.join ((c :: cs).map fun c => c ++ " ")).length > 0 := by
      have h1 : " ".length = 1 := rfl
      simp [String.join_cons, String.length_append]
      omega
    dsimp only at h1 ⊢
    rw [h1, if_pos hpos, List.map_cons, String.join_cons]
    simp [String.append_assoc]

theorem skText_empty : ∀ (lines : List (List String)), (∀ l ∈ lines, l = []) →
    lines.foldl (fun text cells =>
      let text := cells.foldl (fun text cell => text ++ (cell ++ " ")) text
      if text.length > 0 then text ++ "\n" else text) "" = ""
  | [], _ => rfl
  | cells :: lines, h => by
    rw [List.foldl_cons, h cells (by simp)]
    exact skText_empty lines (fun l hl => h l (List.mem_cons_of_mem _ hl))

/-! ## The theorem -/

theorem filterMap_same {β γ : Type} {f g : β → Option γ} : ∀ {l : List β}, (∀ x ∈ l, f x = g x) → l.filterMap f = l.filterMap g
  | [], _ => rfl
  | x :: l, h => by
    rw [List.filterMap_cons, List.filterMap_cons, h x (by simp), filterMap_same fun y hy => h y (List.mem_cons_of_mem _ hy)]

theorem keysOf_thinner {s : Skip κ δ} {L M : SkLevel} (h : OverLevel s L M) : (skKeysOf s L.body).Sublist (skKeysOf s M.body) := by
  have e1 : skKeysOf s L.body = (L.body.map s.down).filterMap fun o => o.bind (kof s) := by
    rw [List.filterMap_map]
    refine filterMap_same fun x hx => ?_
    obtain ⟨y, _, hy⟩ := h.mem hx
    simp only [Function.comp, hy, Option.bind_some, kof, h.key x hx y hy]
  have e2 : skKeysOf s M.body = (M.body.map some).filterMap fun o => o.bind (kof s) := by
    rw [List.filterMap_map]
    exact filterMap_same fun x _ => rfl
  rw [e1, e2]
  exact h.sub.filterMap _

theorem overs_get {s : Skip κ δ} : ∀ {Ls : List SkLevel}, Overs s Ls → ∀ {i : Nat} {L M : SkLevel}, Ls[i]? = some L → Ls[i + 1]? = some M → OverLevel s L M
  | [], _, i, L, M, h, _ => by simp at h
  | [_], _, i, L, M, _, h => by simp at h
  | A :: B :: Ls, ho, 0, L, M, h, h' => by
    simp at h h'
    rw [← h, ← h']; exact ho.1
  | A :: B :: Ls, ho, i + 1, L, M, h, h' => overs_get (Ls := B :: Ls) ho.2 (by simpa using h) (by simpa using h')

/-- The keys of a level are among those of the lowest. -/
theorem keys_lowest {s : Skip κ δ} : ∀ {Ls : List SkLevel} {C : SkLevel}, Overs s Ls → Ls.getLast? = some C → ∀ M ∈ Ls, (skKeysOf s M.body).Sublist (skKeysOf s C.body)
  | [], _, _, h, _, _ => by simp at h
  | [L], C, _, h, M, hM => by
    simp at h hM
    rw [hM, h]; exact List.Sublist.refl _
  | L :: N :: Ls, C, ho, h, M, hM => by
    have ih := keys_lowest (Ls := N :: Ls) (C := C) ho.2 (by simpa using h)
    rcases List.mem_cons.1 hM with rfl | hM
    · exact (keysOf_thinner ho.1).trans (ih N (by simp))
    · exact ih M hM

theorem lines_map {shw : κ → Option δ → String} {s : Skip κ δ} {l : List (κ × Option δ)} (f : SkLevel → List String) : ∀ {Ls : List SkLevel} {L C : SkLevel},
    (L :: Ls).getLast? = some C → f C = skCells shw true (skKeysOf s C.body) l → (∀ M ∈ L :: Ls, M ≠ C → f M = skCells shw false (skKeysOf s M.body) l) →
    (L :: Ls).Nodup → (L :: Ls).map f = skLines shw l ((L :: Ls).map fun M => skKeysOf s M.body)
  | [], L, C, hC, h, _, _ => by
    simp at hC
    subst hC
    simp only [List.map_cons, List.map_nil, skLines]
    rw [h]
  | M :: Ls, L, C, hC, h, h', hn => by
    have ih := lines_map (shw := shw) (s := s) (l := l) f (Ls := Ls) (L := M) (C := C) (by simpa using hC) h (fun N hN => h' N (List.mem_cons_of_mem _ hN)) (List.nodup_cons.1 hn).2
    have hLC : L ≠ C := by
      rintro rfl
      have : L ∈ M :: Ls := List.mem_of_getLast? (by simpa using hC)
      exact (List.nodup_cons.1 hn).1 this
    rw [List.map_cons, ih, h' L (by simp) hLC]
    rfl

theorem levels_nodup {Ls : List SkLevel} (h : (nodesOf Ls).Nodup) : Ls.Nodup := by
  induction Ls with
  | nil => exact List.nodup_nil
  | cons L Ls ih =>
    rw [nodesOf_cons] at h
    obtain ⟨_, h2, h3⟩ := List.nodup_append.1 h
    refine List.nodup_cons.2 ⟨fun hL => ?_, ih h2⟩
    exact h3 L.h (by simp [SkLevel.ids]) L.h (mem_nodesOf.2 ⟨L, hL, by simp [SkLevel.ids]⟩) rfl

/-- The keys read along `next` from a node. -/
def skAlong (s : Skip κ δ) (n : Nat) (o : Option Nat) : List κ := (skRow s n o).map (·.1)

/-- The keys of the levels: `n` steps along `down` from a node, and along `next` in each level. -/
def skAll (s : Skip κ δ) : Nat → Option Nat → List (List κ)
  | 0, _ => []
  | _ + 1, none => []
  | n + 1, some h => skAlong s (s.fresh + 1) (s.next h) :: skAll s n (s.down h)

theorem skAlong_eq {s : Skip κ δ} : ∀ (xs : List Nat) (a t : Nat) (n : Nat), NextChain s.next a xs t → s.key t = .high →
    (∀ x ∈ xs, ∃ k, s.key x = .key k) → xs.length < n → skAlong s n (s.next a) = skKeysOf s xs
  | [], a, t, n, hc, hk, _, hn => by
    obtain ⟨m, rfl⟩ : ∃ m, n = m + 1 := ⟨n - 1, by omega⟩
    have hc : s.next a = some t := hc
    rw [hc]
    simp [skAlong, skRow, hk, skKeysOf]
  | x :: xs, a, t, n, hc, hk, hx, hn => by
    obtain ⟨m, rfl⟩ : ∃ m, n = m + 1 := ⟨n - 1, by omega⟩
    obtain ⟨k, ek⟩ := hx x (by simp)
    have ih := skAlong_eq xs x t m hc.2 hk (fun y hy => hx y (List.mem_cons_of_mem _ hy)) (by simpa using hn)
    rw [hc.1]
    simp only [skAlong] at ih
    simp [skAlong, skRow, ek, skKeysOf, kof_key ek] at ih ⊢
    exact ih

theorem skAll_eq {lt : κ → κ → Bool} {s : Skip κ δ} : ∀ (Ls : List SkLevel) (L C : SkLevel) (n : Nat), (∀ M ∈ L :: Ls, LevelOk lt s M ∧ M.body.length < s.fresh + 1) →
    Overs s (L :: Ls) → (L :: Ls).getLast? = some C → Ground s C → Ls.length < n →
    skAll s n (some L.h) = (L :: Ls).map fun M => skKeysOf s M.body
  | Ls, L, C, n, hok, ho, hC, hG, hn => by
    obtain ⟨m, rfl⟩ : ∃ m, n = m + 1 := ⟨n - 1, by omega⟩
    obtain ⟨hL, hl⟩ := hok L (by simp)
    have e1 := skAlong_eq L.body L.h L.t (s.fresh + 1) hL.chain hL.high hL.keyed hl
    simp only [skAll, e1]
    cases Ls with
    | nil =>
      simp at hC; subst hC
      rw [hG.h]
      cases m <;> rfl
    | cons M Ls =>
      rw [ho.1.h, skAll_eq Ls M C m (fun N hN => hok N (List.mem_cons_of_mem _ hN)) ho.2 (by simpa using hC) hG (by simpa using hn)]
      rfl

/-- The rows of a list: its keys, level by level from `head` down. -/
def skRows (s : Skip κ δ) : List (List κ) := skAll s (s.fresh + 1) s.head

/-- **C141.** After every history, whatever the random bits: the levels are as many as `levels` says, at most one more than there were insertions; the
lowest holds the keys of all elements, every other one some of the keys below it, and only a list of one level has an empty one. `str` never raises and
shows exactly these levels: in the column of the last of the elements with the same key, and nowhere else. -/
theorem C141_levels {lt : κ → κ → Bool} (ho : StrictTotal fun a b => lt a b = true) (shw : κ → Option δ → String) (extra : Nat) (ops : List (SkOp κ δ)) :
    let s := final (skStep lt extra) (skNew : Skip κ δ) ops
    let l := final (skSpec lt) ([] : List (κ × Option δ)) ops
    SkLadder (skRows s) l ∧ skLevels s = (skRows s).length ∧ skLevels s ≤ 1 + skInsertions ops ∧
      EndsWith (fun n => skStr shw n s) (.ok (skShown shw l (skRows s))) := by
  intro s l
  obtain ⟨⟨Ls, hok, hne, hnum, _⟩, hb, ht, hlv⟩ := history_more ho extra ops (skNew : Skip κ δ) [] (skHolds_new lt) skNew_base.1 skNew_base.2
  obtain ⟨L, Ls, rfl⟩ := List.exists_cons_of_ne_nil hne
  obtain ⟨C, hC⟩ : ∃ C, (L :: Ls).getLast? = some C := ⟨_, List.getLast?_eq_some_getLast (by simp)⟩
  have hG : Ground s C := hok.ground C hC
  have hmemC : C ∈ L :: Ls := List.mem_of_getLast? hC
  have hall : (nodesOf (L :: Ls)).length ≤ s.fresh := by
    have h4 := nodup_length_le (b := List.range s.fresh) hok.nodup (fun x hx => List.mem_range.2 (hok.fresh x hx))
    simpa using h4
  have hsmall : ∀ M ∈ L :: Ls, M.body.length + 2 ≤ s.fresh := by
    intro M hM
    obtain ⟨A, B, e⟩ := List.append_of_mem hM
    rw [e, nodesOf_append, nodesOf_cons] at hall
    simp [SkLevel.ids] at hall
    omega
  have hcount : Ls.length + 1 ≤ s.fresh := by
    have h1 := length_le_walkCost (L :: Ls)
    have h2 := walkCost_le (L :: Ls)
    simp only [List.length_cons] at h1
    omega
  have hrows : skRows s = (L :: Ls).map fun M => skKeysOf s M.body := by
    have : s.head = some L.h := hok.head
    unfold skRows
    rw [this]
    exact skAll_eq (lt := lt) Ls L C (s.fresh + 1) (fun M hM => ⟨hok.ok M hM, by have := hsmall M hM; omega⟩) hok.overs hC hG (by omega)
  have hcontent : skEntriesOf s C.body = l := by
    have hc := hok.content
    simp only [bottomBody, hC] at hc
    have : ∀ (xs : List Nat) (l : List (κ × Option δ)), xs.map (fun x => (s.key x, s.data x)) = l.map (fun e => (SKey.key e.1, e.2)) → skEntriesOf s xs = l := by
      intro xs
      induction xs with
      | nil =>
        intro l h
        cases l with
        | nil => rfl
        | cons e l => simp at h
      | cons x xs ih =>
        intro l h
        cases l with
        | nil => simp at h
        | cons e l =>
          simp only [List.map_cons, List.cons.injEq, Prod.mk.injEq] at h
          obtain ⟨⟨h1, h2⟩, h3⟩ := h
          have ih := ih l h3
          simp only [skEntriesOf, List.filterMap_cons, kof_key h1, Option.map_some] at ih ⊢
          rw [ih, h2]
    exact this _ _ hc
  have hkeys : skKeysOf s C.body = l.map (·.1) := by rw [← skEntriesOf_keys, hcontent]
  have hnodup : (L :: Ls).Nodup := levels_nodup hok.nodup
  have hlevels : s.levels = Ls.length + 1 := hok.levels
  refine ⟨⟨?_, ?_, ?_⟩, ?_, ?_, ?_⟩
  · rw [hrows, List.getLast?_map, hC]
    simp [hkeys]
  · intro i a b h1 h2
    rw [hrows, List.getElem?_map, Option.map_eq_some_iff] at h1 h2
    obtain ⟨A, hA, rfl⟩ := h1
    obtain ⟨B, hB, rfl⟩ := h2
    exact keysOf_thinner (overs_get hok.overs hA hB)
  · rw [hrows]
    rcases ht with ht | ht
    · left
      have h1 : s.levels ≤ 1 := ht
      have h2 : Ls.length = 0 := by rw [hlevels] at h1; omega
      simp [h2]
    · right
      intro a ha he
      have ha : skKeysOf s L.body = a := by simpa using ha
      have hL := hok.ok L (by simp)
      have hnil : L.body = [] := by
        cases eb : L.body with
        | nil => rfl
        | cons x xs =>
          obtain ⟨k, ek⟩ := hL.keyed x (by rw [eb]; simp)
          have hx : k ∈ skKeysOf s L.body := by
            rw [eb]; unfold skKeysOf
            exact List.mem_filterMap.2 ⟨x, by simp, kof_key ek⟩
          rw [ha, he] at hx
          simp at hx
      have hc := hL.chain
      rw [hnil] at hc
      exact ht L.h hok.head (hc.trans hok.tail.symm)
  · show s.levels = _
    rw [hrows, hlevels]; simp
  · have : s.levels ≤ 1 + skInsertions ops := hlv
    exact this
  · refine ⟨s.fresh + 1, fun n hn => ?_⟩
    have hn : s.fresh + 1 ≤ n := hn
    have hinv : ∀ M ∈ L :: Ls, LevelOk lt s M ∧ s.next M.t = none ∧ M.body.length + 3 ≤ n := fun M hM =>
      ⟨hok.ok M hM, hb.high M.t (hok.ok M hM).high, by have := hsmall M hM; omega⟩
    obtain ⟨seen, g1, g2, g3⟩ := scan_run (lt := lt) (inner := n) Ls L C ⟨.empty, .empty⟩ n hinv hok.overs hC hG (by omega)
    have g2 : ∀ i, seen.row.val i = rowOf (L :: Ls) i := by
      intro i
      rw [g2 i]
      cases rowOf (L :: Ls) i <;> rfl
    have g3 : ∀ k, seen.col.val k = (lastPos k (l.map (·.1))).map fun (j : Nat) => (j : Int) := by
      intro k
      rw [g3 k, hkeys]
      cases lastPos k (l.map (·.1)) <;> rfl
    have hout : ∀ M ∈ L :: Ls, seen.row.val M.t = none ∧ seen.row.val M.h = none := by
      intro M hM
      obtain ⟨A, B, e⟩ := List.append_of_mem hM
      have hn' := hok.nodup
      rw [e] at hn'
      have key : ∀ x, x ∈ M.ids → x ∉ M.body → seen.row.val x = none := by
        intro x hx hxb
        rw [g2]
        refine rowOf_none fun N hN => ?_
        rw [e] at hN
        by_cases hNM : N = M
        · rw [hNM]; exact hxb
        · have : N ∈ A ++ B := by
            rcases List.mem_append.1 hN with h | h
            · exact List.mem_append_left _ h
            · rcases List.mem_cons.1 h with h | h
              · exact absurd h hNM
              · exact List.mem_append_right _ h
          exact fun hx' => nodup_apart hn' this hx (by simp [SkLevel.ids, hx'])
      have hM' := nodup_level hn'
      simp only [SkLevel.ids, List.nodup_cons, List.mem_cons, not_or] at hM'
      exact ⟨key _ (by simp [SkLevel.ids]) hM'.2.1, key _ (by simp [SkLevel.ids]) hM'.1.2⟩
    have hplace := place_run (lt := lt) (shw := shw) (seen := seen) (pos := fun k => lastPos k (l.map (·.1))) (inner := n) (base := List.replicate l.length "None") Ls L C n []
      (fun M hM => ⟨(hinv M hM).1, (hinv M hM).2.1, (hinv M hM).2.2, hout M hM⟩) hok.overs hC hG (by omega)
      (fun A M B e x hx => by
        rw [g2, e]
        have hn' := hok.nodup
        rw [e] at hn'
        exact rowOf_some hx fun N hN hx' => nodup_apart hn' (List.mem_append_right _ hN) (show x ∈ M.ids by simp [SkLevel.ids, hx]) (by simp [SkLevel.ids, hx']))
      (fun M hM x hx => by
        obtain ⟨k, ek⟩ := (hok.ok M hM).keyed x hx
        have hk : k ∈ l.map (·.1) := by
          rw [← hkeys]
          exact (keys_lowest hok.overs hC M hM).subset (List.mem_filterMap.2 ⟨x, hx, kof_key ek⟩)
        obtain ⟨j, h1, h2⟩ := lastPos_mem hk
        exact ⟨k, j, ek, by rw [g3, h1]; rfl, h1, by simpa using h2⟩)
    have hlines := lines_map (shw := shw) (s := s) (l := l) (fun M => placeE shw (fun k => lastPos k (l.map (·.1))) (List.replicate l.length "None") (skEntriesOf s M.body)) hC
      (by
        have := placed_cells (shw := shw) (low := true) (l := l) (es := skEntriesOf s C.body) (fun _ => hcontent) (fun h => nomatch h)
        rw [skEntriesOf_keys] at this; exact this)
      (fun M hM hMC => by
        have := placed_cells (shw := shw) (low := false) (l := l) (es := skEntriesOf s M.body) (fun h => nomatch h) (fun _ e he => by
          obtain ⟨x, hx, hxe⟩ := List.mem_filterMap.1 he
          obtain ⟨k, _, rfl⟩ := Option.map_eq_some_iff.1 hxe
          -- a level that is not the lowest: the node has a node below it
          obtain ⟨i, hi⟩ := List.getElem?_of_mem hM
          cases hi' : (L :: Ls)[i + 1]? with
          | none =>
            exfalso
            rw [List.getElem?_eq_none_iff] at hi'
            have h1 := (List.getElem?_eq_some_iff.1 hi).1
            have : i = (L :: Ls).length - 1 := by omega
            rw [this, ← List.getLast?_eq_getElem?, hC] at hi
            exact hMC (Option.some.inj hi).symm
          | some N =>
            obtain ⟨y, _, hy⟩ := (overs_get hok.overs hi hi').mem hx
            exact hb.bare x (by rw [hy]; simp))
        rw [skEntriesOf_keys] at this; exact this) hnodup
    have hcast : ((s.levels : Nat) : Int) - 1 = (Ls.length : Int) := by rw [hlevels]; simp
    have hnum' : s.num = l.length := hnum
    simp only [skStr]
    rw [hcast, show s.head = some L.h from hok.head, g1, ok_bind, hlevels, hnum']
    rw [List.append_nil, List.append_nil] at hplace
    rw [hplace, ok_bind]
    congr 1
    simp only [skText, List.reverse_reverse, skShown, hrows]
    rw [hlines]
    have hlen : ∀ (low : Bool) (ks : List κ) (l : List (κ × Option δ)), (skCells shw low ks l).length = l.length := by
      intro low ks l
      induction l with
      | nil => rfl
      | cons e l ih => simp [skCells, ih]
    have hlin : ∀ rows : List (List κ), ∀ x ∈ skLines shw l rows, x.length = l.length := by
      intro rows
      induction rows with
      | nil => intro x hx; simp [skLines] at hx
      | cons r rows ih =>
        intro x hx
        cases rows with
        | nil =>
          simp only [skLines, List.mem_singleton] at hx
          rw [hx]; exact hlen _ _ _
        | cons q rows =>
          simp only [skLines, List.mem_cons] at hx
          rcases hx with rfl | hx
          · exact hlen _ _ _
          · exact ih x (by simpa [skLines] using hx)
    by_cases hl : l = []
    · rw [if_pos hl]
      refine skText_empty _ fun x hx => ?_
      have := hlin _ x hx
      rw [hl] at this
      exact List.length_eq_zero_iff.1 this
    · rw [if_neg hl]
      have hpos : 0 < l.length := List.length_pos_iff.2 hl
      rw [skText_eq hpos _ "" (hlin _), String.empty_append]

/-! ## Equal keys -/

/-- What one expects of the text: its lowest line shows every element, and a line above shows the elements whose nodes reach that level. -/
def C141_full : Prop :=
  ∀ (lt : Nat → Nat → Bool) (_ : StrictTotal fun a b => lt a b = true) (extra : Nat) (shw : Nat → Option Nat → String) (ops : List (SkOp Nat Nat)),
    let s := final (skStep lt extra) (skNew : Skip Nat Nat) ops
    let l := final (skSpec lt) ([] : List (Nat × Option Nat)) ops
    ∃ lines : List (List String), EndsWith (fun n => skStr shw n s) (.ok (String.join (lines.map fun cells => String.join (cells.map fun c => c ++ " ") ++ "\n"))) ∧
      (l ≠ [] → lines.getLast? = some (l.map fun e => shw e.1 e.2))

theorem skCells_distinct {shw : κ → Option δ → String} {ks : List κ} : ∀ {l : List (κ × Option δ)}, (l.map (·.1)).Nodup →
    skCells shw true ks l = l.map fun e => if e.1 ∈ ks then shw e.1 e.2 else "None" := by
  intro l
  induction l with
  | nil => intro _; rfl
  | cons e l ih =>
    intro h
    obtain ⟨h1, h2⟩ := List.nodup_cons.1 (show (e.1 :: l.map (·.1)).Nodup from h)
    have h3 : ∀ e' ∈ l, e'.1 ≠ e.1 := fun e' he' hk => h1 (hk ▸ List.mem_map.2 ⟨e', he', rfl⟩)
    simp only [skCells, List.map_cons, ih h2]
    by_cases hm : e.1 ∈ ks
    · rw [if_pos ⟨hm, h3⟩, if_pos hm]; simp
    · rw [if_neg (fun h => hm h.1), if_neg hm]

/-- The lowest line is the list exactly when no key occurs twice (`str` of a node is never `None`). -/
theorem skCells_all {shw : κ → Option δ → String} (hs : ∀ k d, shw k d ≠ "None") : ∀ (ks : List κ) (l : List (κ × Option δ)), (∀ e ∈ l, e.1 ∈ ks) →
    (skCells shw true ks l = (l.map fun e => shw e.1 e.2) ↔ (l.map (·.1)).Nodup) := by
  intro ks l
  induction l with
  | nil => intro _; simp [skCells]
  | cons e l ih =>
    intro h
    have ih := ih fun e' he' => h e' (by simp [he'])
    simp only [skCells, List.map_cons, List.cons.injEq, List.nodup_cons, ih]
    have : (e.1 ∈ l.map (·.1)) ↔ ¬ ∀ e' ∈ l, e'.1 ≠ e.1 := by
      rw [List.mem_map]
      constructor
      · rintro ⟨e', h1, h2⟩ hall
        exact hall e' h1 h2
      · intro hn
        apply Classical.byContradiction
        intro hc
        exact hn fun e' h1 h2 => hc ⟨e', h1, h2⟩
    rw [this, Classical.not_not]
    refine and_congr_left fun _ => ?_
    constructor
    · intro he
      apply Classical.byContradiction
      intro hn
      rw [if_neg (fun hh => hn hh.2)] at he
      exact hs _ _ he.symm
    · intro hall
      rw [if_pos ⟨h e (by simp), hall⟩]; simp

/-- With different keys the lowest line shows every element, in order. -/
theorem C141_distinct_partial {lt : κ → κ → Bool} (ho : StrictTotal fun a b => lt a b = true) (shw : κ → Option δ → String) (extra : Nat) (ops : List (SkOp κ δ)) :
    let s := final (skStep lt extra) (skNew : Skip κ δ) ops
    let l := final (skSpec lt) ([] : List (κ × Option δ)) ops
    (l.map (·.1)).Nodup → (skLines shw l (skRows s)).getLast? = some (l.map fun e => shw e.1 e.2) := by
  intro s l hnd
  have h := (C141_levels ho shw extra ops).1.lowest
  have key : ∀ rows : List (List κ), rows.getLast? = some (l.map (·.1)) → (skLines shw l rows).getLast? = some (l.map fun e => shw e.1 e.2) := by
    intro rows
    induction rows with
    | nil => intro h; simp at h
    | cons r rows ih =>
      intro h
      cases rows with
      | nil =>
        simp only [List.getLast?_singleton, Option.some.injEq] at h
        subst h
        simp only [skLines, List.getLast?_singleton, Option.some.injEq]
        rw [skCells_distinct hnd]
        refine List.map_congr_left fun e he => ?_
        rw [if_pos (List.mem_map.2 ⟨e, he, rfl⟩)]
      | cons q rows =>
        rw [List.getLast?_cons_cons] at h
        have := ih h
        simp only [skLines]
        cases hq : skLines shw l (q :: rows) with
        | nil => rw [hq] at this; simp at this
        | cons a as => rw [List.getLast?_cons_cons, ← hq]; exact this
  exact key _ h

/-- Exactly the lists with different keys are shown completely. -/
theorem C141_exact {lt : κ → κ → Bool} (ho : StrictTotal fun a b => lt a b = true) (shw : κ → Option δ → String) (hs : ∀ k d, shw k d ≠ "None") (extra : Nat)
    (ops : List (SkOp κ δ)) :
    let s := final (skStep lt extra) (skNew : Skip κ δ) ops
    let l := final (skSpec lt) ([] : List (κ × Option δ)) ops
    (skLines shw l (skRows s)).getLast? = some (l.map fun e => shw e.1 e.2) ↔ (l.map (·.1)).Nodup := by
  intro s l
  refine ⟨?_, C141_distinct_partial ho shw extra ops⟩
  have h := (C141_levels ho shw extra ops).1.lowest
  have key : ∀ rows : List (List κ), rows.getLast? = some (l.map (·.1)) → (skLines shw l rows).getLast? = some (l.map fun e => shw e.1 e.2) →
      (l.map (·.1)).Nodup := by
    intro rows
    induction rows with
    | nil => intro h; simp at h
    | cons r rows ih =>
      intro h hl
      cases rows with
      | nil =>
        simp only [List.getLast?_singleton, Option.some.injEq] at h
        subst h
        simp only [skLines, List.getLast?_singleton, Option.some.injEq] at hl
        exact (skCells_all hs _ l fun e he => List.mem_map.2 ⟨e, he, rfl⟩).1 hl
      | cons q rows =>
        rw [List.getLast?_cons_cons] at h
        simp only [skLines] at hl
        refine ih h ?_
        cases hq : skLines shw l (q :: rows) with
        | nil => cases rows <;> simp [skLines] at hq
        | cons a as => rw [hq, List.getLast?_cons_cons] at hl; exact hl
  exact key _ h

/-- A node as `str` shows it. -/
def skDemo (k : Nat) (d : Option Nat) : String := "(" ++ toString k ++ ", " ++ (match d with | none => "None" | some d => toString d) ++ ")"

/-- Three elements on three levels, computed by the model. -/
example : skStr skDemo 20 (final (skStep (fun a b => decide (a < b)) 0) (skNew : Skip Nat Nat)
    [.insert 5 (some 50) (fun _ => true), .insert 3 (some 30) (fun _ => false), .insert 8 none (fun i => i = 0)])
    = .ok (skShown skDemo [(3, some 30), (5, some 50), (8, none)] (skRows (final (skStep (fun a b => decide (a < b)) 0) (skNew : Skip Nat Nat)
    [.insert 5 (some 50) (fun _ => true), .insert 3 (some 30) (fun _ => false), .insert 8 none (fun i => i = 0)]))) := by decide +kernel
example : skShown skDemo [(3, some 30), (5, some 50), (8, none)] [[5], [3, 5, 8]]
    = "None (5, None) None \n(3, 30) (5, 50) (8, None) \n" := by decide +kernel

theorem join_getLast {x : String} : ∀ {ls : List String}, ls.getLast? = some x → x.length ≤ (String.join ls).length := by
  intro ls
  induction ls with
  | nil => intro h; simp at h
  | cons a ls ih =>
    intro h
    rw [String.join_cons, String.length_append]
    cases ls with
    | nil =>
      simp only [List.getLast?_singleton, Option.some.injEq] at h
      subst h; omega
    | cons b ls =>
      rw [List.getLast?_cons_cons] at h
      have := ih h
      omega

/-- Two elements with the same key: the first has no cell of its own. -/
theorem C141_full_false : ¬ C141_full := by
  intro hf
  have ho : StrictTotal fun a b : Nat => (decide (a < b)) = true :=
    ⟨fun a => by simp, fun a b c h1 h2 => by simp at *; omega, fun a b => by simp; omega⟩
  obtain ⟨lines, ⟨n, hn⟩, hl⟩ := hf _ ho 0 skDemo [.insert 1 (some 10) (fun _ => false), .insert 1 (some 11) (fun _ => false)]
  obtain ⟨_, _, _, ⟨m, hm⟩⟩ := C141_levels ho skDemo 0 [.insert 1 (some 10) (fun _ => false), .insert 1 (some 11) (fun _ => false)]
  have h1 := (hn (n + m) (by omega)).symm.trans (hm (n + m) (by omega))
  have h2 := Except.ok.inj h1
  have h3 := hl (by decide +kernel)
  have h4 : (lines.map fun cells => String.join (cells.map fun c => c ++ " ") ++ "\n").getLast? = some "(1, 11) (1, 10) \n" := by
    rw [List.getLast?_map, h3]
    decide +kernel
  have h5 := join_getLast h4
  rw [h2] at h5
  revert h5
  decide +kernel

end Props
