import Verif.Cache.Props

/-! C26 exactly: which histories of calls on a copy of an LRU cache are defined, and what they answer. -/

namespace Verif.Cache
open Spec
set_option linter.unusedSectionVars false
variable {K : Type} [DecidableEq K]

/-- Calls that follow the stored iterator of one of the given keys. -/
def Spec.follows (stale : List K) : Op K → Bool
  | .find k | .access k | .remove k => decide (k ∈ stale)
  | _ => false

/-- Reference semantics of a copy: `stale` are the keys that have been there since the copy was made.  Calls that follow the
iterator of such a key have no meaning, all others behave as in every cache. -/
def Spec.LRU.runCopy (stale : List K) (s : LRU K) : List (Op K) → Res (LRU K × List (Out K))
  | [] => .ok (s, [])
  | op :: ops =>
    if follows stale op then .ub
    else do
      let (s, o) ← s.step op
      let (s, os) ← Spec.LRU.runCopy (stale.filter (· ∈ s.keys)) s ops
      .ok (s, o :: os)

/-- The cache with another map. -/
def withMap (c : Cache K) (m : K → Option Nat) : Cache K := { c with map := m }

/-- `c` would be consistent with the map `m`, from which its own differs only for the keys `S`; there its iterators are older
than `b`, and all its nodes are not. -/
structure Part (b : Nat) (S : List K) (c : Cache K) (m : K → Option Nat) : Prop where
  inv : Inv (withMap c m)
  ids : ∀ p ∈ c.list, b ≤ p.1
  nb : b ≤ c.next
  stale : ∀ k ∈ S, ∃ i, i < b ∧ c.map k = some i
  same : ∀ k, k ∉ S → c.map k = m k
  sub : ∀ k ∈ S, k ∈ c.values

variable {b : Nat} {S : List K} {c : Cache K} {m : K → Option Nat}

theorem Part.mset (h : Part b S c m) (k : K) : (c.map k).isSome = (m k).isSome := by
  by_cases hk : k ∈ S
  · obtain ⟨i, -, e⟩ := h.stale k hk
    rw [e]
    exact ((h.inv.weak.mapKeys k).2 (h.sub k hk)).symm
  · rw [h.same k hk]

theorem Part.contains (h : Part b S c m) (k : K) : c.contains k = decide (k ∈ c.values) := by
  show (c.map k).isSome = _
  rw [h.mset k]
  exact h.inv.weak.contains k

theorem Part.weak (h : Part b S c m) : WInv c :=
  ⟨h.inv.keys, fun k => by rw [h.mset]; exact h.inv.weak.mapKeys k⟩

theorem Part.congr (h : Part b S c m) {S' : List K} (hS : ∀ k, k ∈ S' ↔ k ∈ S) : Part b S' c m :=
  ⟨h.inv, h.ids, h.nb, fun k hk => h.stale k ((hS k).1 hk), fun k hk => h.same k (fun h' => hk ((hS k).2 h')),
    fun k hk => h.sub k ((hS k).1 hk)⟩

theorem Part.filter (h : Part b S c m) : Part b (S.filter (· ∈ c.values)) c m :=
  h.congr fun k => by simpa using h.sub k

/-! ### clip -/

theorem clipLoop_maps (c : Cache K) : ∀ m : K → Option Nat, ∃ m', (withMap c m).clipLoop = withMap c.clipLoop m' ∧
    ∀ k, (c.clipLoop.map k = c.map k ∧ m' k = m k) ∨ (c.clipLoop.map k = none ∧ m' k = none) := by
  induction c using Cache.clipLoop.induct with
  | case1 c hn =>
    intro m
    have hn' : (withMap c m).clipStep = none := by
      unfold Cache.clipStep at hn ⊢
      show (if c.list.length > c.maxElements then _ else none) = none
      split at hn
      · next hlt =>
        rw [if_pos hlt]
        split at hn
        · next hb => show (match c.list.getLast? with | none => none | some back => _) = none; rw [hb]
        · cases hn
      · next hlt => rw [if_neg hlt]
    have e1 : c.clipLoop = c := by
      rw [Cache.clipLoop.eq_def]; split
      · rfl
      · next hs => rw [hn] at hs; cases hs
    have e2 : (withMap c m).clipLoop = withMap c m := by
      rw [Cache.clipLoop.eq_def]; split
      · rfl
      · next hs => rw [hn'] at hs; cases hs
    exact ⟨m, by rw [e1, e2], fun k => Or.inl ⟨by rw [e1], rfl⟩⟩
  | case2 c c' hs ih =>
    intro m
    obtain ⟨l, back, h1, h2, rfl⟩ := clipStep_some hs
    obtain ⟨m', e, hm⟩ := ih (fun k => if k = back.2 then none else m k)
    have hs' : (withMap c m).clipStep = some (withMap
        { c with map := fun k => if k = back.2 then none else c.map k, log := c.log ++ [back.2], list := l, clipped := c.clipped + 1 }
        (fun k => if k = back.2 then none else m k)) := by
      have hlt : c.list.length > c.maxElements := by rw [h1]; simp; omega
      unfold Cache.clipStep
      show (if c.list.length > c.maxElements then (match c.list.getLast? with | none => none | some back => _) else none) = _
      rw [if_pos hlt, h1]
      simp [withMap, h1]
    have e1 : c.clipLoop = Cache.clipLoop
        { c with map := fun k => if k = back.2 then none else c.map k, log := c.log ++ [back.2], list := l, clipped := c.clipped + 1 } := by
      rw [Cache.clipLoop.eq_def]; split
      · next hs'' => rw [hs] at hs''; cases hs''
      · next c'' hs'' => rw [hs] at hs''; injection hs'' with hs''; rw [← hs'']
    have e2 : (withMap c m).clipLoop = withMap c.clipLoop m' := by
      rw [Cache.clipLoop.eq_def]; split
      · next hs'' => rw [hs'] at hs''; cases hs''
      · next c'' hs'' => rw [hs'] at hs''; injection hs'' with hs''; rw [← hs'', e, e1]
    refine ⟨m', e2, fun k => ?_⟩
    rw [e1]
    rcases hm k with ⟨a1, a2⟩ | a
    · by_cases hk : k = back.2
      · right; rw [a1, a2]; simp [hk]
      · left; rw [a1, a2]; simp [hk]
    · exact Or.inr a

theorem clip_sub (c : Cache K) : ∀ p ∈ c.clip.list, p ∈ c.list := by
  unfold Cache.clip
  apply clipLoop_ind (fun c' => ∀ p ∈ c'.list, p ∈ c.list)
  · intro a a' h hs
    obtain ⟨l, b, h1, _, rfl⟩ := clipStep_some hs
    exact fun p hp => h p (by rw [h1]; exact List.mem_append_left _ hp)
  · exact fun p hp => hp

theorem Part.clip (h : Part b S c m) :
    ∃ m', (withMap c m).clip = withMap c.clip m' ∧ Part b (S.filter (· ∈ c.clip.values)) c.clip m' := by
  obtain ⟨m', e, hm⟩ := clipLoop_maps { c with clipped := 0 } m
  have e' : (withMap c m).clip = withMap c.clip m' := e
  refine ⟨m', e', ?_⟩
  have hi : Inv (withMap c.clip m') := e' ▸ h.inv.clip
  refine ⟨hi, fun p hp => h.ids p (clip_sub c p hp), by rw [clip_next]; exact h.nb, fun k hk => ?_, fun k hk => ?_, fun k hk => ?_⟩
  · obtain ⟨k1, k2⟩ := List.mem_filter.1 hk
    simp only [decide_eq_true_eq] at k2
    obtain ⟨i, hi1, hi2⟩ := h.stale k k1
    have h1 := (hi.weak.mapKeys k).2 k2
    rcases hm k with ⟨a1, -⟩ | ⟨-, a2⟩
    · exact ⟨i, hi1, by rw [show c.clip.map k = c.map k from a1]; exact hi2⟩
    · rw [show (withMap c.clip m').map k = none from a2] at h1; cases h1
  · rcases hm k with ⟨a1, a2⟩ | ⟨a1, a2⟩
    · rw [show c.clip.map k = c.map k from a1, a2]
      by_cases hkS : k ∈ S
      · exfalso
        have hn : k ∉ c.clip.values := fun h' => hk (List.mem_filter.2 ⟨hkS, by simpa using h'⟩)
        have h0 : (m' k).isSome = true := by
          rw [a2]; exact (h.inv.weak.mapKeys k).2 (h.sub k hkS)
        exact hn ((hi.weak.mapKeys k).1 h0)
      · exact h.same k hkS
    · rw [show c.clip.map k = none from a1, a2]
  · exact of_decide_eq_true (List.mem_filter.1 hk).2

theorem Part.last (h : Part b S c m) (x : Bool) : Part b S { c with last := x } m :=
  ⟨h.inv.last x, h.ids, h.nb, h.stale, h.same, h.sub⟩

theorem Part.add (h : Part b S c m) (k : K) :
    ∃ c' m', c.add (.val k) = .ok c' ∧ (withMap c m).add (.val k) = .ok (withMap c' m') ∧ Part b (S.filter (· ∈ c'.values)) c' m' := by
  by_cases hk : k ∈ c.values
  · refine ⟨_, m, add_present h.weak (.val k) rfl hk, add_present h.inv.weak (.val k) rfl hk, (h.last false).filter⟩
  · have hkS : k ∉ S := fun h' => hk (h.sub k h')
    have hp : Part b S { c with list := (c.next, k) :: c.list, next := c.next + 1, map := fun k' => if k' = k then some c.next else c.map k' }
        (fun k' => if k' = k then some c.next else m k') := by
      refine ⟨h.inv.push hk, fun p hp => ?_, Nat.le_succ_of_le h.nb, fun k' hk' => ?_, fun k' hk' => ?_, fun k' hk' => ?_⟩
      · rcases List.mem_cons.1 hp with rfl | hp
        · exact h.nb
        · exact h.ids p hp
      · show ∃ i, i < b ∧ (if k' = k then some c.next else c.map k') = some i
        rw [if_neg (fun e : k' = k => hkS (e ▸ hk'))]
        exact h.stale k' hk'
      · show (if k' = k then some c.next else c.map k') = (if k' = k then some c.next else m k')
        rw [h.same k' hk']
      · exact List.mem_cons_of_mem _ (h.sub k' hk')
    obtain ⟨m', e, hP⟩ := hp.clip
    refine ⟨_, m', add_absent h.weak hk, ?_, hP.last true⟩
    rw [add_absent h.inv.weak hk]
    exact congrArg (fun c' : Cache K => Res.ok { c' with last := true }) e

theorem Part.find (h : Part b S c m) {k : K} (hk : k ∉ S) :
    (∃ c' j m', c.find (.val k) = .ok (c', some j) ∧ (withMap c m).find (.val k) = .ok (withMap c' m', some j) ∧
      (∀ x ∈ c'.values, x ∈ c.values) ∧ Part b S c' m') ∨
    (c.find (.val k) = .ok (c, none) ∧ (withMap c m).find (.val k) = .ok (withMap c m, none)) := by
  by_cases hv : k ∈ c.values
  · obtain ⟨i, h1, h2⟩ := h.inv.map_some (k := k) hv
    obtain ⟨g', j, l, e, hi, hl, -⟩ := h.inv.moveToFront h2
    have hf := h.inv.find? h2
    have e0 := e
    unfold Cache.moveToFront at e
    rw [hf] at e
    simp only at e
    have h1' : c.map k = some i := by rw [h.same k hk]; exact h1
    by_cases hh : c.list.head?.map Prod.fst = some i
    · have e1 : (withMap c m).moveToFront i = .ok (withMap c m) := by
        rw [e0, ← e, if_pos (show (withMap c m).list.head?.map Prod.fst = some i from hh)]
      have e2 : c.moveToFront i = .ok c := by
        unfold Cache.moveToFront
        rw [show c.list.find? (fun p => decide (p.1 = i)) = some (i, k) from hf]
        simp only
        rw [if_pos hh]
      rw [e0] at e1
      injection e1 with e1
      rw [e1] at hl
      have hl' : c.list = (j, k) :: l := hl
      refine Or.inl ⟨c, j, m, ?_, ?_, fun x hx => hx, h⟩
      · unfold Cache.find
        simp only [Cache.readArg, Res.bind_ok, h1', e2, hl', List.head?_cons]
      · unfold Cache.find
        simp only [Cache.readArg, Res.bind_ok, h1, e0, e1, hl, List.head?_cons]
    · rw [if_neg (show ¬ (withMap c m).list.head?.map Prod.fst = some i from hh)] at e
      injection e with e
      have e2 : c.moveToFront i = .ok { c with
          list := (c.next, k) :: c.list.eraseP (fun q => q.1 = i), map := fun k' => if k' = k then some c.next else c.map k',
          next := c.next + 1 } := by
        unfold Cache.moveToFront
        rw [show c.list.find? (fun p => decide (p.1 = i)) = some (i, k) from hf]
        simp only
        rw [if_neg hh]
      have eg : g' = withMap { c with
          list := (c.next, k) :: c.list.eraseP (fun q => q.1 = i), map := fun k' => if k' = k then some c.next else c.map k',
          next := c.next + 1 } (fun k' => if k' = k then some c.next else m k') := e.symm
      have hj : j = c.next := by
        rw [eg] at hl
        have := (List.cons.inj hl).1
        exact (congrArg Prod.fst this).symm
      refine Or.inl ⟨{ c with
          list := (c.next, k) :: c.list.eraseP (fun q => q.1 = i), map := fun k' => if k' = k then some c.next else c.map k',
          next := c.next + 1 }, j, fun k' => if k' = k then some c.next else m k', ?_, ?_, ?_, ?_⟩
      · unfold Cache.find
        simp only [Cache.readArg, Res.bind_ok, h1', e2, List.head?_cons, hj]
      · unfold Cache.find
        simp only [Cache.readArg, Res.bind_ok, h1, e0, hl, List.head?_cons]
        rw [eg]
      · intro x hx
        obtain ⟨p, hp, rfl⟩ := List.mem_map.1 hx
        rcases List.mem_cons.1 hp with rfl | hp
        · exact hv
        · exact List.mem_map.2 ⟨p, List.mem_of_mem_eraseP hp, rfl⟩
      · refine ⟨eg ▸ hi, fun p hp => ?_, Nat.le_succ_of_le h.nb, fun k' hk' => ?_, fun k' hk' => ?_, fun k' hk' => ?_⟩
        · rcases List.mem_cons.1 hp with rfl | hp
          · exact h.nb
          · exact h.ids p (List.mem_of_mem_eraseP hp)
        · show ∃ i, i < b ∧ (if k' = k then some c.next else c.map k') = some i
          rw [if_neg (fun e : k' = k => hk (e ▸ hk'))]
          exact h.stale k' hk'
        · show (if k' = k then some c.next else c.map k') = (if k' = k then some c.next else m k')
          rw [h.same k' hk']
        · have h3 := h.sub k' hk'
          have hne : k' ≠ k := fun e => hk (e ▸ hk')
          show k' ∈ ((c.next, k) :: c.list.eraseP (fun q => q.1 = i)).map Prod.snd
          rw [eraseP_eq (l := c.list) h.inv.ids h.inv.keys h2, List.map_cons, map_filter_snd]
          exact List.mem_cons_of_mem _ (List.mem_filter.2 ⟨h3, by simpa using hne⟩)
  · have h1 : m k = none := h.inv.map_none hv
    have h1' : c.map k = none := by rw [h.same k hk]; exact h1
    refine Or.inr ⟨?_, ?_⟩
    · unfold Cache.find
      simp only [Cache.readArg, Res.bind_ok, h1']
    · unfold Cache.find
      simp only [Cache.readArg, Res.bind_ok, show (withMap c m).map k = none from h1]

theorem Part.remove (h : Part b S c m) {k : K} (hk : k ∉ S) :
    ∃ c' m', c.remove (.val k) = .ok c' ∧ (withMap c m).remove (.val k) = .ok (withMap c' m') ∧ Part b S c' m' := by
  obtain ⟨g', e, hi, -⟩ := h.inv.remove k
  have e0 := e
  unfold Cache.remove at e
  by_cases hv : k ∈ c.values
  · obtain ⟨i, h1, h2⟩ := h.inv.map_some (k := k) hv
    have h1' : c.map k = some i := by rw [h.same k hk]; exact h1
    have hd : c.deref i = .ok k := h.inv.deref h2
    simp only [Cache.readArg, Res.bind_ok, h1, h.inv.deref h2] at e
    injection e with e
    refine ⟨{ c with list := c.list.eraseP (fun q => q.1 = i), map := fun k' => if k' = k then none else c.map k', last := true },
      fun k' => if k' = k then none else m k', ?_, ?_, ?_⟩
    · unfold Cache.remove
      simp only [Cache.readArg, Res.bind_ok, h1', hd]
    · rw [e0, ← e]; rfl
    · rw [← e] at hi
      refine ⟨hi, fun p hp => h.ids p (List.mem_of_mem_eraseP hp), h.nb, fun k' hk' => ?_, fun k' hk' => ?_, fun k' hk' => ?_⟩
      · show ∃ i, i < b ∧ (if k' = k then none else c.map k') = some i
        rw [if_neg (fun e : k' = k => hk (e ▸ hk'))]
        exact h.stale k' hk'
      · show (if k' = k then none else c.map k') = (if k' = k then none else m k')
        rw [h.same k' hk']
      · have h3 := h.sub k' hk'
        have hne : k' ≠ k := fun e => hk (e ▸ hk')
        show k' ∈ (c.list.eraseP (fun q => q.1 = i)).map Prod.snd
        rw [eraseP_eq (l := c.list) h.inv.ids h.inv.keys h2, map_filter_snd]
        exact List.mem_filter.2 ⟨h3, by simpa using hne⟩
  · have h1 : m k = none := h.inv.map_none hv
    have h1' : c.map k = none := by rw [h.same k hk]; exact h1
    refine ⟨{ c with last := false }, m, ?_, ?_, h.last false⟩
    · unfold Cache.remove
      simp only [Cache.readArg, Res.bind_ok, h1']
    · unfold Cache.remove
      simp only [Cache.readArg, Res.bind_ok, show (withMap c m).map k = none from h1]
      rfl

/-- `find` in `operator[]` and afterwards. -/
theorem Part.access_tail (h : Part b S c m) {k : K} (hk : k ∉ S) :
    (∃ c' o m', (do let (c, it) ← c.find (.val k)
                    match it with
                    | some id => do let _ ← c.deref id; Res.ok (c, id)
                    | none => .ub) = .ok (c', o) ∧
      (do let (c, it) ← (withMap c m).find (.val k)
          match it with
          | some id => do let _ ← c.deref id; Res.ok (c, id)
          | none => .ub) = .ok (withMap c' m', o) ∧ (∀ x ∈ c'.values, x ∈ c.values) ∧ Part b S c' m') ∨
    ((do let (c, it) ← c.find (.val k)
         match it with
         | some id => do let _ ← c.deref id; Res.ok (c, id)
         | none => Res.ub) = Res.ub ∧
      (do let (c, it) ← (withMap c m).find (.val k)
          match it with
          | some id => do let _ ← c.deref id; Res.ok (c, id)
          | none => Res.ub) = Res.ub) := by
  rcases h.find hk with ⟨c', j, m', e1, e2, hx, hP⟩ | ⟨e1, e2⟩
  · rw [e1, e2]
    simp only [Res.bind_ok]
    rw [show (withMap c' m').deref j = c'.deref j from rfl]
    have hne : ∀ x, c'.deref j ≠ .exc x := by
      intro x; unfold Cache.deref; split <;> exact fun h => by cases h
    cases hd : c'.deref j with
    | ok v => exact Or.inl ⟨c', j, m', rfl, rfl, hx, hP⟩
    | exc x => exact absurd hd (hne x)
    | ub => exact Or.inr ⟨rfl, rfl⟩
  · rw [e1, e2]
    exact Or.inr ⟨rfl, rfl⟩

theorem Part.access (h : Part b S c m) {k : K} (hk : k ∉ S) :
    (∃ c' o m', c.access (.val k) = .ok (c', o) ∧ (withMap c m).access (.val k) = .ok (withMap c' m', o) ∧
      Part b (S.filter (· ∈ c'.values)) c' m') ∨
    (c.access (.val k) = .ub ∧ (withMap c m).access (.val k) = .ub) := by
  have hc := h.contains k
  have hc' : (withMap c m).contains k = decide (k ∈ c.values) := h.inv.weak.contains k
  by_cases hv : k ∈ c.values
  · unfold Cache.access
    simp only [Cache.readArg, Res.bind_ok, hc, hc', hv, decide_true, Bool.not_true, Bool.false_eq_true, if_false]
    rcases (h.last false).access_tail hk with ⟨c', o, m', e1, e2, hx, hP⟩ | ⟨e1, e2⟩
    · exact Or.inl ⟨c', o, m', e1, e2, hP.filter⟩
    · exact Or.inr ⟨e1, e2⟩
  · unfold Cache.access
    obtain ⟨c1, m1, a1, a2, hP1⟩ := h.add k
    simp only [Cache.readArg, Res.bind_ok, hc, hc', hv, decide_false, Bool.not_false, if_true, a1, a2]
    rcases hP1.access_tail (k := k) (fun h' => hk (List.mem_filter.1 h').1) with ⟨c', o, m', e1, e2, hx, hP⟩ | ⟨e1, e2⟩
    · refine Or.inl ⟨c', o, m', e1, e2, hP.filter.congr fun x => ?_⟩
      simp only [List.mem_filter, decide_eq_true_eq]
      constructor
      · rintro ⟨x1, x2⟩
        exact ⟨⟨x1, hx x x2⟩, x2⟩
      · rintro ⟨⟨x1, -⟩, x2⟩; exact ⟨x1, x2⟩
    · exact Or.inr ⟨e1, e2⟩

theorem Part.setMax (h : Part b S c m) (n : Nat) : Part b S { c with maxElements := n } m :=
  ⟨h.inv.setMax n, h.ids, h.nb, h.stale, h.same, h.sub⟩

theorem Part.step (h : Part b S c m) {op : Op K} (hop : follows S op = false) :
    (∃ c' o m', Cache.step c op = .ok (c', o) ∧ Cache.step (withMap c m) op = .ok (withMap c' m', o) ∧
      Part b (S.filter (· ∈ c'.values)) c' m') ∨
    (Cache.step c op = .ub ∧ Cache.step (withMap c m) op = .ub) := by
  cases op with
  | add k =>
    obtain ⟨c', m', e1, e2, hP⟩ := h.add k
    exact Or.inl ⟨c', .none, m', by simp only [Cache.step, e1, Res.bind_ok], by simp only [Cache.step, e2, Res.bind_ok], hP⟩
  | find k =>
    have hk : k ∉ S := by simpa [follows] using hop
    rcases h.find hk with ⟨c', j, m', e1, e2, hx, hP⟩ | ⟨e1, e2⟩
    · simp only [Cache.step, e1, e2, Res.bind_ok]
      rw [show (withMap c' m').deref j = c'.deref j from rfl]
      have hne : ∀ x, c'.deref j ≠ .exc x := by
        intro x; unfold Cache.deref; split <;> exact fun h => by cases h
      cases hd : c'.deref j with
      | ok v => exact Or.inl ⟨c', .found (some v), m', rfl, rfl, hP.filter⟩
      | exc x => exact absurd hd (hne x)
      | ub => exact Or.inr ⟨rfl, rfl⟩
    · simp only [Cache.step, e1, e2, Res.bind_ok]
      exact Or.inl ⟨c, .found none, m, rfl, rfl, h.filter⟩
  | access k =>
    have hk : k ∉ S := by simpa [follows] using hop
    rcases h.access hk with ⟨c', j, m', e1, e2, hP⟩ | ⟨e1, e2⟩
    · simp only [Cache.step, e1, e2, Res.bind_ok]
      rw [show (withMap c' m').deref j = c'.deref j from rfl]
      have hne : ∀ x, c'.deref j ≠ .exc x := by
        intro x; unfold Cache.deref; split <;> exact fun h => by cases h
      cases hd : c'.deref j with
      | ok v => exact Or.inl ⟨c', .elem v, m', rfl, rfl, hP⟩
      | exc x => exact absurd hd (hne x)
      | ub => exact Or.inr ⟨rfl, rfl⟩
    · exact Or.inr ⟨by simp only [Cache.step, e1, Res.bind_ub], by simp only [Cache.step, e2, Res.bind_ub]⟩
  | remove k =>
    have hk : k ∉ S := by simpa [follows] using hop
    obtain ⟨c', m', e1, e2, hP⟩ := h.remove hk
    exact Or.inl ⟨c', .none, m', by simp only [Cache.step, e1, Res.bind_ok], by simp only [Cache.step, e2, Res.bind_ok], hP.filter⟩
  | clear =>
    refine Or.inl ⟨c.clear, .none, fun _ => none, rfl, rfl, Inv.clear (c := withMap c m), (fun p hp => by cases hp), h.nb, fun k hk => ?_, fun k hk => rfl, fun k hk => ?_⟩
    · have := (List.mem_filter.1 hk).2; simp [Cache.clear, Cache.values] at this
    · have := (List.mem_filter.1 hk).2; simp [Cache.clear, Cache.values] at this
  | setCapacity n =>
    obtain ⟨m', e, hP⟩ := (h.setMax n).clip
    exact Or.inl ⟨c.setCapacity n, .none, m', rfl, congrArg (fun x : Cache K => Res.ok (x, Out.none)) e, hP⟩
  | clip =>
    obtain ⟨m', e, hP⟩ := h.clip
    exact Or.inl ⟨c.clip, .none, m', rfl, congrArg (fun x : Cache K => Res.ok (x, Out.none)) e, hP⟩

theorem Part.follow_ub (h : Part b S c m) {op : Op K} (hop : follows S op = true) : Cache.step c op = .ub := by
  have key : ∀ k ∈ S, ∃ i, c.map k = some i ∧ c.list.find? (fun p => p.1 = i) = none := by
    intro k hk
    obtain ⟨i, h1, h2⟩ := h.stale k hk
    refine ⟨i, h2, List.find?_eq_none.2 fun p hp => ?_⟩
    have := h.ids p hp
    simp; omega
  cases op with
  | find k =>
    obtain ⟨i, h1, h2⟩ := key k (by simpa [follows] using hop)
    unfold Cache.step Cache.find Cache.moveToFront
    simp only [Cache.readArg, Res.bind_ok, h1, h2, Res.bind_ub]
  | access k =>
    have hk : k ∈ S := by simpa [follows] using hop
    obtain ⟨i, h1, h2⟩ := key k hk
    have hc : c.contains k = true := by rw [h.contains]; simpa using h.sub k hk
    unfold Cache.step Cache.access Cache.find Cache.moveToFront
    simp only [Cache.readArg, Res.bind_ok, hc, Bool.not_true, Bool.false_eq_true, if_false, h1, h2, Res.bind_ub]
  | remove k =>
    obtain ⟨i, h1, h2⟩ := key k (by simpa [follows] using hop)
    unfold Cache.step Cache.remove Cache.deref
    simp only [Cache.readArg, Res.bind_ok, h1, h2, Res.bind_ub]
  | add k => cases hop
  | clear => cases hop
  | setCapacity n => cases hop
  | clip => cases hop

theorem Part.run (ops : List (Op K)) : ∀ {S : List K} {c : Cache K} {m : K → Option Nat}, Part b S c m → c.values.length ≤ c.maxElements →
    (∃ c' os, Cache.run c ops = .ok (c', os) ∧ LRU.runCopy S (abs c) ops = .ok (abs c', os)) ∨
    (Cache.run c ops = .ub ∧ LRU.runCopy S (abs c) ops = .ub) := by
  induction ops with
  | nil => intro S c m h _; exact Or.inl ⟨c, [], rfl, rfl⟩
  | cons op ops ih =>
    intro S c m h hc
    unfold Cache.run LRU.runCopy
    cases hf : follows S op with
    | true =>
      rw [h.follow_ub hf]
      exact Or.inr ⟨rfl, by simp⟩
    | false =>
      simp only [Bool.false_eq_true, if_false]
      rcases h.step hf with ⟨c', o, m', e1, e2, hP⟩ | ⟨e1, e2⟩
      · rcases h.inv.step (show (withMap c m).values.length ≤ (withMap c m).maxElements from hc) op with ⟨g', o', e3, -, a⟩ | ⟨e3, -⟩
        · rw [e2] at e3
          injection e3 with e3
          injection e3 with e3 e4
          subst e4
          rw [← e3] at a
          replace a : (abs c).step op = .ok (abs c', o) := a
          rw [e1, a]
          simp only [Res.bind_ok]
          rcases ih hP (step_len (s := abs c) hc a) with ⟨c2, os, r1, r2⟩ | ⟨r1, r2⟩
          · replace r2 : LRU.runCopy (S.filter (· ∈ (abs c').keys)) (abs c') ops = .ok (abs c2, os) := r2
            exact Or.inl ⟨c2, o :: os, by rw [r1]; rfl, by rw [r2]; rfl⟩
          · replace r2 : LRU.runCopy (S.filter (· ∈ (abs c').keys)) (abs c') ops = .ub := r2
            exact Or.inr ⟨by rw [r1]; rfl, by rw [r2]; rfl⟩
        · rw [e2] at e3; cases e3
      · rcases h.inv.step (show (withMap c m).values.length ≤ (withMap c m).maxElements from hc) op with ⟨g', o', e3, -, a⟩ | ⟨e3, a⟩
        · rw [e2] at e3; cases e3
        · replace a : (abs c).step op = .ub := a
          rw [e1, a]
          exact Or.inr ⟨rfl, rfl⟩

/-- The map the copy should have had. -/
def freshMap (c : Cache K) (k : K) : Option Nat := (c.copy.list.find? (fun p => p.2 = k)).map Prod.fst

theorem part_copy {c : Cache K} (h : Inv c) : Part c.next c.values c.copy (freshMap c) := by
  have hk : c.copy.values.Nodup := by rw [copy_values]; exact h.keys
  have hfst : c.copy.list.map Prod.fst = List.range' c.next c.list.length := by
    unfold Cache.copy
    simp only [List.map_map]
    rw [show (Prod.fst ∘ fun p : (Nat × K) × Nat => (c.next + p.2, p.1.2)) = (fun i => c.next + i) ∘ Prod.snd from rfl,
      ← List.map_map, List.zipIdx_map_snd, List.map_add_range']
    simp
  have hid : (c.copy.list.map Prod.fst).Nodup := by rw [hfst]; exact List.nodup_range'
  have hmem : ∀ p ∈ c.copy.list, c.next ≤ p.1 ∧ p.1 < c.next + c.list.length := by
    intro p hp
    have : p.1 ∈ c.copy.list.map Prod.fst := List.mem_map_of_mem hp
    rw [hfst] at this
    have := List.mem_range'_1.1 this
    exact this
  refine ⟨⟨hk, hid, fun k i => ?_, fun p hp => (hmem p hp).2⟩, fun p hp => (hmem p hp).1, Nat.le_add_right _ _, fun k hk' => ?_, fun k hk' => ?_, fun k hk' => ?_⟩
  · show freshMap c k = some i ↔ (i, k) ∈ c.copy.list
    unfold freshMap
    constructor
    · intro e
      cases hf : c.copy.list.find? (fun p => decide (p.2 = k)) with
      | none => rw [hf] at e; cases e
      | some p =>
        rw [hf] at e
        have h1 := List.mem_of_find?_eq_some hf
        have h2 := List.find?_some hf
        simp only [Option.map_some, Option.some.injEq] at e
        simp only [decide_eq_true_eq] at h2
        rw [← e, ← h2]
        exact h1
    · intro hm
      have : c.copy.list.find? (fun p => decide (p.2 = k)) = some (i, k) := by
        unfold Cache.values at hk
        revert hk hm
        generalize c.copy.list = l
        intro hk hm
        induction l with
        | nil => cases hm
        | cons p l ih =>
          rw [List.map_cons, List.nodup_cons] at hk
          rw [List.find?_cons]
          by_cases hp : p.2 = k
          · simp only [hp, decide_true]
            rcases List.mem_cons.1 hm with rfl | hm
            · rfl
            · exact absurd (List.mem_map.2 ⟨_, hm, hp.symm⟩) hk.1
          · simp only [hp, decide_false]
            rcases List.mem_cons.1 hm with rfl | hm
            · exact absurd rfl hp
            · exact ih hk.2 hm
      rw [this]; rfl
  · obtain ⟨i, h1, h2⟩ := h.map_some hk'
    exact ⟨i, h.fresh _ h2, h1⟩
  · show c.map k = freshMap c k
    rw [h.map_none hk']
    unfold freshMap
    have : c.copy.list.find? (fun p => decide (p.2 = k)) = none := by
      rw [List.find?_eq_none]
      intro p hp e
      simp only [decide_eq_true_eq] at e
      have : k ∈ c.copy.values := List.mem_map.2 ⟨p, hp, e⟩
      rw [copy_values] at this
      exact hk' this
    rw [this]; rfl
  · rw [copy_values]; exact hk'

/-- **C26, exactly**: a history of calls on a copy is defined, and then answers as specified, as long as it does not call `find`,
`operator[]` or `remove` with a key that has been in the copy since it was made; the first such call is undefined.  Copied keys
become usable again when they are discarded, or cleared, and added again. -/
theorem C26_exact {c : Cache K} (h : Reachable c) (ops : List (Op K)) :
    (∃ c' os, run c.copy ops = .ok (c', os) ∧ LRU.runCopy c.values { abs c with discarded := [] } ops = .ok (abs c', os)) ∨
    (run c.copy ops = .ub ∧ LRU.runCopy c.values { abs c with discarded := [] } ops = .ub) := by
  obtain ⟨i, l⟩ := h.inv
  have := (part_copy i).run ops (by rw [copy_values]; exact l)
  rw [show abs c.copy = { abs c with discarded := [] } by unfold abs; rw [copy_values]; rfl] at this
  exact this

/-- The copy of the cache 2, 3 of capacity 2: 5 is added, so that 3 is discarded; then 5 and 3 can be used, while following 2 is undefined until it is discarded. -/
example : (match run exC.copy [.add 5, .find 5, .find 3, .access 3, .find 2] with | .ok (c, os) => some (c.values, os) | _ => none) =
      some ([3, 5], [.none, .found (some 5), .found none, .elem 3, .found none]) ∧
    run exC.copy [.add 5, .find 2] = .ub ∧ LRU.runCopy [2, 3] ⟨2, [2, 3], true, 0, []⟩ [.add 5, .find 2] = .ub := by
  refine ⟨by decide +kernel, ?_, by decide +kernel⟩
  rcases C26_exact exC_reach [.add 5, .find 2] with ⟨c', os, -, e⟩ | ⟨e, -⟩
  · exfalso
    have : LRU.runCopy exC.values { abs exC with discarded := [] } [.add 5, .find 2] = .ub := by decide +kernel
    rw [this] at e; cases e
  · exact e

end Verif.Cache
