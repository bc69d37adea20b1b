import Verif.Command.Model
import Mathlib.Data.List.Basic
import Mathlib.Data.List.Perm.Basic

/-!
C194: commands whose destructors use the manager (structures/command.h:12-75).

A `delete` in `dispose` or `clip` runs the destructor of the command, which may call the manager again.  Here the loops of command.h are executed
one step at a time, with a stack of what remains to be done.

`store` is taken to return (see Model.lean).
-/

namespace Verif.Command

/-- What remains to be done. -/
inductive Frame where
  | acts (ops : List Op)                -- the calls of a destructor, or of the program
  | push (p : Nat)                      -- l.43 `_first.push_back(new_command)`
  | clipFirst | clipSecond              -- l.67-70, l.71-74: the loops of `clip`
  | disposeFirst | disposeSecond        -- l.56-60: the loop of `dispose(_first)`, `dispose(_second)`
deriving DecidableEq, Repr

structure St where
  m : Mgr := {}
  stack : List Frame
  handed : List Nat := []               -- the commands that `store` has got, in order
deriving DecidableEq, Repr

/-- `delete ptr` with `ptr` already taken from its deque: the destructor's calls come first.  Deleting twice is UB, `nullptr` is ignored. -/
def deleteCmd (eff : Nat → List Op) (s : St) (p : Nat) : Res St :=
  if p = 0 then .ok s
  else if p ∈ s.m.deleted then .ub
  else .ok { s with m := { s.m with deleted := s.m.deleted ++ [p] }, stack := .acts (eff p) :: s.stack }

/-- The start of a call, command.h:17-51. -/
def enter (s : St) : Op → Res St
  | .store p =>
    .ok { s with stack := (if s.m.second.length ≠ 0 then [.disposeSecond] else []) ++ [.push p, .clipFirst, .clipSecond] ++ s.stack }
  | .undo =>
    if s.m.first.length ≠ 0 then do
      let (ptr, second) ← popBack s.m.second
      .ok { s with m := { s.m with second := second ++ [ptr] }, stack := [.clipFirst, .clipSecond] ++ s.stack }
    else .ok s
  | .redo =>
    if s.m.second.length ≠ 0 then do
      let (ptr, first) ← popBack s.m.first
      .ok { s with m := { s.m with first := first ++ [ptr] }, stack := [.clipFirst, .clipSecond] ++ s.stack }
    else .ok s
  | .dispose => .ok { s with stack := .disposeSecond :: s.stack }

/-- One step; `none` if nothing remains to be done. -/
def next (eff : Nat → List Op) (s : St) : Res (Option St) :=
  match s.stack with
  | [] => .ok none
  | .acts [] :: k => .ok (some { s with stack := k })
  | .acts (o :: os) :: k => do
    let s ← enter { s with stack := .acts os :: k } o
    .ok (some s)
  | .push p :: k => .ok (some { m := { s.m with first := s.m.first ++ [p] }, stack := k, handed := s.handed ++ [p] })
  | .clipFirst :: k =>
    match s.m.first with
    | ptr :: rest =>
      if rest.length + 1 > s.m.maxElements then do
        let s ← deleteCmd eff { s with m := { s.m with first := rest } } ptr
        .ok (some s)
      else .ok (some { s with stack := k })
    | [] => .ok (some { s with stack := k })
  | .clipSecond :: k =>
    match s.m.second with
    | ptr :: rest =>
      if rest.length + 1 > s.m.maxElements then do
        let s ← deleteCmd eff { s with m := { s.m with second := rest } } ptr
        .ok (some s)
      else .ok (some { s with stack := k })
    | [] => .ok (some { s with stack := k })
  | .disposeFirst :: k =>
    if s.m.first.length ≠ 0 then do
      let (ptr, first) ← popBack s.m.first
      let s ← deleteCmd eff { s with m := { s.m with first := first } } ptr
      .ok (some s)
    else .ok (some { s with stack := k })
  | .disposeSecond :: k =>
    if s.m.second.length ≠ 0 then do
      let (ptr, second) ← popBack s.m.second
      let s ← deleteCmd eff { s with m := { s.m with second := second } } ptr
      .ok (some s)
    else .ok (some { s with stack := k })

/-- `s'` is reached from `s`. -/
inductive Reach (eff : Nat → List Op) : St → St → Prop
  | refl (s) : Reach eff s s
  | tail {s t u} : Reach eff s t → next eff t = .ok (some u) → Reach eff s u

/-- A program: the calls, then the destructor of the manager (command.h:12-15). -/
def start (ops : List Op) : St := { stack := [.acts ops, .disposeFirst, .disposeSecond] }

/-! ### Invariant -/

/-- No `undo` and no `disposeFirst` in the frame. -/
def Frame.Plain : Frame → Prop
  | .acts ops => .undo ∉ ops
  | .disposeFirst => False
  | _ => True

/-- The frames above those of the destructor. -/
structure RInv (s : St) : Prop where
  second : s.m.second = []
  max : s.m.maxElements = 1024
  nonnull : 0 ∉ s.handed
  shape : (∃ u, s.stack = u ++ [.disposeFirst, .disposeSecond] ∧ (∀ f ∈ u, f.Plain)) ∨ (s.stack = [.disposeSecond] ∧ s.m.first = []) ∨
    (s.stack = [] ∧ s.m.first = [])
  perm : (s.m.deleted ++ s.m.first).Perm s.handed

theorem popBack_append (l : List Nat) (x : Nat) : popBack (l ++ [x]) = .ok (x, l) := by
  simp [popBack]

/-- One step keeps the invariant, and is not UB unless a command is handed over twice. -/
theorem RInv.step {eff : Nat → List Op} (he : ∀ p, .undo ∉ eff p) {s : St} (h : RInv s) :
    (∀ u, next eff s = .ok (some u) → (0 ∉ u.handed → RInv u)) ∧ (s.handed.Nodup → next eff s ≠ .ub) ∧
    (next eff s = .ok none → s.m.deleted.Perm s.handed) ∧ ∀ e, next eff s ≠ .exc e := by
  obtain ⟨⟨mx, first, second, deleted⟩, stack, handed⟩ := s
  obtain ⟨h2, hmx, h0, hs, hp⟩ := h
  simp only at h2 hmx h0 hs hp
  subst h2 hmx
  rcases hs with ⟨u, hu, hpl⟩ | ⟨hst, hf⟩ | ⟨hst, hf⟩
  · cases u with
    | nil =>
      -- disposeFirst
      simp only [List.nil_append] at hu
      subst hu
      rcases List.eq_nil_or_concat first with rfl | ⟨l, x, rfl⟩
      · refine ⟨?_, ?_, ?_, ?_⟩
        · intro v hv hv0
          simp only [next, List.length_nil, ne_eq, not_true_eq_false, if_false] at hv
          cases hv
          exact ⟨rfl, rfl, h0, Or.inr (Or.inl ⟨rfl, rfl⟩), hp⟩
        · intro _; simp [next]
        · intro hv; simp [next] at hv
        · intro e; simp [next]
      · rw [List.concat_eq_append] at hp
        have hx : x ∈ handed := hp.subset (by simp)
        have hx0 : x ≠ 0 := fun e => h0 (e ▸ hx)
        have hnx : ∀ {v}, next eff ⟨⟨1024, l ++ [x], [], deleted⟩, [.disposeFirst, .disposeSecond], handed⟩ = v →
            (if x ∈ deleted then .ub else .ok (some ⟨⟨1024, l, [], deleted ++ [x]⟩, [.acts (eff x), .disposeFirst, .disposeSecond], handed⟩)) = v := by
          intro v hv
          rw [← hv]
          have hne : (l ++ [x]).length ≠ 0 := by simp
          simp only [next, if_pos hne, popBack_append, deleteCmd, if_neg hx0, Res.bind_ok]
          by_cases hd : x ∈ deleted
          · simp only [if_pos hd]; rfl
          · simp only [if_neg hd]; rfl
        rw [List.concat_eq_append]
        refine ⟨?_, ?_, ?_, ?_⟩
        · intro v hv hv0
          have := hnx hv
          split at this
          · cases this
          · cases this
            refine ⟨rfl, rfl, h0, Or.inl ⟨[.acts (eff x)], rfl, ?_⟩, ?_⟩
            · intro f hf
              rw [List.mem_singleton] at hf
              subst hf
              exact he x
            · refine List.Perm.trans ?_ hp
              simp only [List.append_assoc]
              exact List.Perm.append_left _ (List.perm_append_comm)
        · intro hn hub
          have := hnx hub
          split at this
          · next hd =>
            have := hp.nodup_iff.2 hn
            exact (List.nodup_append.1 this).2.2 x hd x (by simp) rfl
          · cases this
        · intro hnn
          have := hnx hnn
          split at this <;> cases this
        · intro e hee
          have := hnx hee
          split at this <;> cases this
    | cons f u =>
      have hplu : ∀ g ∈ u, g.Plain := fun g hg => hpl g (List.mem_cons_of_mem _ hg)
      have hplf : f.Plain := hpl f (by simp)
      rw [List.cons_append] at hu
      subst hu
      -- a step that only changes the stack
      have keep : ∀ (st : List Frame), (∀ g ∈ st, g.Plain) →
          RInv ⟨⟨1024, first, [], deleted⟩, st ++ u ++ [.disposeFirst, .disposeSecond], handed⟩ := by
        intro st hst
        refine ⟨rfl, rfl, h0, Or.inl ⟨st ++ u, rfl, ?_⟩, hp⟩
        intro g hg
        rcases List.mem_append.1 hg with hg | hg
        · exact hst g hg
        · exact hplu g hg
      have done : ∀ (st : List Frame), (∀ g ∈ st, g.Plain) →
          next eff ⟨⟨1024, first, [], deleted⟩, f :: (u ++ [.disposeFirst, .disposeSecond]), handed⟩ =
            .ok (some ⟨⟨1024, first, [], deleted⟩, st ++ u ++ [.disposeFirst, .disposeSecond], handed⟩) →
          (∀ v, next eff ⟨⟨1024, first, [], deleted⟩, f :: (u ++ [.disposeFirst, .disposeSecond]), handed⟩ = .ok (some v) → (0 ∉ v.handed → RInv v)) ∧
          (handed.Nodup → next eff ⟨⟨1024, first, [], deleted⟩, f :: (u ++ [.disposeFirst, .disposeSecond]), handed⟩ ≠ .ub) ∧
          (next eff ⟨⟨1024, first, [], deleted⟩, f :: (u ++ [.disposeFirst, .disposeSecond]), handed⟩ = .ok none → deleted.Perm handed) ∧
          ∀ e, next eff ⟨⟨1024, first, [], deleted⟩, f :: (u ++ [.disposeFirst, .disposeSecond]), handed⟩ ≠ .exc e := by
        intro st hst e
        rw [e]
        exact ⟨fun v hv _ => by cases hv; exact keep st hst, fun _ h => (by cases h), fun h => (by cases h), fun _ h => (by cases h)⟩
      cases f with
      | disposeFirst => exact hplf.elim
      | disposeSecond => exact done [] (by simp) (by simp [next])
      | clipSecond => exact done [] (by simp) (by simp [next])
      | push p =>
        refine ⟨?_, fun _ h => (by simp [next] at h), fun h => (by simp [next] at h), fun _ h => (by simp [next] at h)⟩
        intro v hv hv0
        simp only [next] at hv
        cases hv
        refine ⟨rfl, rfl, hv0, Or.inl ⟨u, rfl, hplu⟩, ?_⟩
        simp only
        rw [← List.append_assoc]
        exact List.Perm.append_right _ hp
      | acts l =>
        cases l with
        | nil => exact done [] (by simp) (by simp [next])
        | cons o os =>
          have hos : .undo ∉ os := fun h => hplf (List.mem_cons_of_mem _ h)
          cases o with
          | undo => exact (hplf (by simp)).elim
          | redo => exact done [.acts os] (by simpa [Frame.Plain] using hos) (by simp [next, enter])
          | dispose => exact done [.disposeSecond, .acts os] (by simpa [Frame.Plain] using hos) (by simp [next, enter])
          | store p => exact done [.push p, .clipFirst, .clipSecond, .acts os] (by simpa [Frame.Plain] using hos) (by simp [next, enter])
      | clipFirst =>
        cases first with
        | nil => exact done [] (by simp) (by simp [next])
        | cons x rest =>
          by_cases hlen : rest.length + 1 > 1024
          · have hx : x ∈ handed := hp.subset (by simp)
            have hx0 : x ≠ 0 := fun e => h0 (e ▸ hx)
            have hnx : next eff ⟨⟨1024, x :: rest, [], deleted⟩, .clipFirst :: (u ++ [.disposeFirst, .disposeSecond]), handed⟩ =
                (if x ∈ deleted then .ub else .ok (some ⟨⟨1024, rest, [], deleted ++ [x]⟩,
                  (.acts (eff x) :: .clipFirst :: u) ++ [.disposeFirst, .disposeSecond], handed⟩)) := by
              simp only [next, deleteCmd, if_neg hx0, if_pos hlen]
              split <;> rfl
            rw [hnx]
            refine ⟨?_, ?_, ?_, ?_⟩
            · intro v hv hv0
              split at hv
              · cases hv
              · cases hv
                refine ⟨rfl, rfl, h0, Or.inl ⟨.acts (eff x) :: .clipFirst :: u, rfl, ?_⟩, ?_⟩
                · intro g hg
                  rcases List.mem_cons.1 hg with rfl | hg
                  · exact he x
                  rcases List.mem_cons.1 hg with rfl | hg
                  · trivial
                  · exact hplu g hg
                · simpa using hp
            · intro hn hub
              split at hub
              · next hd =>
                have := hp.nodup_iff.2 hn
                exact (List.nodup_append.1 this).2.2 x hd x (by simp) rfl
              · cases hub
            · intro hnn
              split at hnn <;> cases hnn
            · intro e hee
              split at hee <;> cases hee
          · exact done [] (by simp) (by simp only [next, if_neg hlen]; rfl)
  · subst hst hf
    refine ⟨?_, fun _ h => (by simp [next] at h), fun h => (by simp [next] at h), fun _ h => (by simp [next] at h)⟩
    intro v hv _
    simp only [next, List.length_nil, ne_eq, not_true_eq_false, if_false] at hv
    cases hv
    exact ⟨rfl, rfl, h0, Or.inr (Or.inr ⟨rfl, rfl⟩), hp⟩
  · subst hst hf
    refine ⟨fun v hv => by simp [next] at hv, fun _ h => (by simp [next] at h), fun _ => ?_, fun _ h => (by simp [next] at h)⟩
    simpa using hp

/-- `store` only adds to the commands handed over. -/
theorem next_handed {eff : Nat → List Op} {s u : St} (h : next eff s = .ok (some u)) : s.handed <+: u.handed := by
  have hdel : ∀ (s t : St) p, deleteCmd eff s p = .ok t → t.handed = s.handed := by
    intro s t p h
    unfold deleteCmd at h
    split at h
    · cases h; rfl
    · split at h
      · cases h
      · cases h; rfl
  have hent : ∀ (s t : St) o, enter s o = .ok t → t.handed = s.handed := by
    intro s t o h
    cases o with
    | store p => cases h; rfl
    | dispose => cases h; rfl
    | undo =>
      simp only [enter] at h
      split at h
      · obtain ⟨⟨_, _⟩, _, h⟩ := Res.bind_eq_ok.1 h
        cases h; rfl
      · cases h; rfl
    | redo =>
      simp only [enter] at h
      split at h
      · obtain ⟨⟨_, _⟩, _, h⟩ := Res.bind_eq_ok.1 h
        cases h; rfl
      · cases h; rfl
  unfold next at h
  split at h
  · cases h
  · cases h; exact List.prefix_refl _
  · obtain ⟨t, ht, h⟩ := Res.bind_eq_ok.1 h
    cases h
    rw [hent _ _ _ ht]
    exact List.prefix_refl _
  · cases h; exact List.prefix_append _ _
  · split at h
    · split at h
      · obtain ⟨t, ht, h⟩ := Res.bind_eq_ok.1 h
        cases h
        rw [hdel _ _ _ ht]
        exact List.prefix_refl _
      · cases h; exact List.prefix_refl _
    · cases h; exact List.prefix_refl _
  · split at h
    · split at h
      · obtain ⟨t, ht, h⟩ := Res.bind_eq_ok.1 h
        cases h
        rw [hdel _ _ _ ht]
        exact List.prefix_refl _
      · cases h; exact List.prefix_refl _
    · cases h; exact List.prefix_refl _
  · split at h
    · obtain ⟨⟨_, _⟩, _, h⟩ := Res.bind_eq_ok.1 h
      obtain ⟨t, ht, h⟩ := Res.bind_eq_ok.1 h
      cases h
      rw [hdel _ _ _ ht]
      exact List.prefix_refl _
    · cases h; exact List.prefix_refl _
  · split at h
    · obtain ⟨⟨_, _⟩, _, h⟩ := Res.bind_eq_ok.1 h
      obtain ⟨t, ht, h⟩ := Res.bind_eq_ok.1 h
      cases h
      rw [hdel _ _ _ ht]
      exact List.prefix_refl _
    · cases h; exact List.prefix_refl _

theorem RInv.reach {eff : Nat → List Op} (he : ∀ p, .undo ∉ eff p) {s t : St} (hr : Reach eff s t) (h : RInv s) (h0 : 0 ∉ t.handed) : RInv t := by
  induction hr with
  | refl => exact h
  | tail hr hn ih =>
    have hpre := next_handed hn
    exact (RInv.step he (ih (fun hm => h0 (hpre.subset hm)))).1 _ hn h0

theorem RInv.start {ops : List Op} (h : .undo ∉ ops) : RInv (start ops) :=
  ⟨rfl, rfl, by simp [Command.start], Or.inl ⟨[.acts ops], rfl, by simpa [Frame.Plain] using h⟩, List.Perm.refl _⟩

/-! ### Calls, without the destructor -/

/-- The oldest commands are deleted first, and only if there are more than 1024; the frames below are those of the call. -/
structure CInv (s : St) : Prop where
  second : s.m.second = []
  max : s.m.maxElements = 1024
  split : s.handed = s.m.deleted ++ s.m.first
  full : s.m.deleted ≠ [] → 1024 ≤ s.m.first.length
  plain : ∀ f ∈ s.stack, f.Plain
  shape : (s.m.first.length ≤ 1024 ∧ ∃ rest, s.stack = [.acts rest] ∨ s.stack = [.clipSecond, .acts rest] ∨ s.stack = [.disposeSecond, .acts rest]) ∨
    (s.m.first.length ≤ 1024 ∧ s.stack = []) ∨ ∃ u rest, s.stack = u ++ [.clipFirst, .clipSecond, .acts rest]

theorem CInv.step {eff : Nat → List Op} (he : ∀ p, .undo ∉ eff p) {s v : St} (h : CInv s) (hn : next eff s = .ok (some v)) (h0 : 0 ∉ v.handed) :
    CInv v := by
  have h0' : 0 ∉ s.handed := fun hm => h0 ((next_handed hn).subset hm)
  obtain ⟨⟨mx, first, second, deleted⟩, stack, handed⟩ := s
  obtain ⟨h2, hmx, hs, hf, hp, hsh⟩ := h
  simp only at h2 hmx hs hf hp hsh h0'
  subst h2 hmx hs
  cases stack with
  | nil => simp [next] at hn
  | cons f k =>
    have hpk : ∀ g ∈ k, g.Plain := fun g hg => hp g (List.mem_cons_of_mem _ hg)
    have hpf : f.Plain := hp f (by simp)
    -- the frame at the top is replaced
    have repl : ∀ st : List Frame, (∀ g ∈ st, g.Plain) →
        ((first.length ≤ 1024 ∧ ∃ rest, st ++ k = [.acts rest] ∨ st ++ k = [.clipSecond, .acts rest] ∨ st ++ k = [.disposeSecond, .acts rest]) ∨
          (first.length ≤ 1024 ∧ st ++ k = []) ∨ ∃ u rest, st ++ k = u ++ [.clipFirst, .clipSecond, .acts rest]) →
        CInv ⟨⟨1024, first, [], deleted⟩, st ++ k, deleted ++ first⟩ := by
      intro st hst hsh
      refine ⟨rfl, rfl, rfl, hf, ?_, hsh⟩
      intro g hg
      rcases List.mem_append.1 hg with hg | hg
      · exact hst g hg
      · exact hpk g hg
    -- deeper frames of the call stay
    have deep : ∀ st : List Frame, (∃ u rest, f :: k = u ++ [.clipFirst, .clipSecond, .acts rest]) → f ≠ .clipFirst →
        ∃ u rest, st ++ k = u ++ [.clipFirst, .clipSecond, .acts rest] := by
      rintro st ⟨u, rest, hu⟩ hne
      cases u with
      | nil => simp only [List.nil_append, List.cons.injEq] at hu; exact absurd hu.1 hne
      | cons g u =>
        simp only [List.cons_append, List.cons.injEq] at hu
        exact ⟨st ++ u, rest, by rw [hu.2, List.append_assoc]⟩
    cases f with
    | disposeFirst => exact hpf.elim
    | disposeSecond =>
      simp only [next, List.length_nil, ne_eq, not_true_eq_false, if_false] at hn
      cases hn
      refine repl [] (by simp) ?_
      rcases hsh with ⟨hl, rest, hc | hc | hc⟩ | ⟨_, hc⟩ | hc
      · cases hc
      · cases hc
      · cases hc; exact Or.inl ⟨hl, rest, Or.inl rfl⟩
      · cases hc
      · exact Or.inr (Or.inr (deep [] hc (by simp)))
    | clipSecond =>
      simp only [next] at hn
      cases hn
      refine repl [] (by simp) ?_
      rcases hsh with ⟨hl, rest, hc | hc | hc⟩ | ⟨_, hc⟩ | hc
      · cases hc
      · cases hc; exact Or.inl ⟨hl, rest, Or.inl rfl⟩
      · cases hc
      · cases hc
      · exact Or.inr (Or.inr (deep [] hc (by simp)))
    | push p =>
      simp only [next] at hn
      cases hn
      refine ⟨rfl, rfl, by simp, ?_, hpk, ?_⟩
      · intro hd
        have := hf hd
        simp only [List.length_append]
        omega
      · rcases hsh with ⟨hl, rest, hc | hc | hc⟩ | ⟨_, hc⟩ | hc
        · cases hc
        · cases hc
        · cases hc
        · cases hc
        · exact Or.inr (Or.inr (deep [] hc (by simp)))
    | acts l =>
      cases l with
      | nil =>
        simp only [next] at hn
        cases hn
        refine repl [] (by simp) ?_
        rcases hsh with ⟨hl, rest, hc | hc | hc⟩ | ⟨_, hc⟩ | hc
        · cases hc; exact Or.inr (Or.inl ⟨hl, rfl⟩)
        · cases hc
        · cases hc
        · cases hc
        · exact Or.inr (Or.inr (deep [] hc (by simp)))
      | cons o os =>
        have hos : .undo ∉ os := fun h => hpf (List.mem_cons_of_mem _ h)
        cases o with
        | undo => exact (hpf (by simp)).elim
        | redo =>
          simp only [next, enter, List.length_nil, ne_eq, not_true_eq_false, if_false, Res.bind_ok] at hn
          cases hn
          refine repl [.acts os] (by simpa [Frame.Plain] using hos) ?_
          rcases hsh with ⟨hl, rest, hc | hc | hc⟩ | ⟨_, hc⟩ | hc
          · cases hc; exact Or.inl ⟨hl, os, Or.inl rfl⟩
          · cases hc
          · cases hc
          · cases hc
          · exact Or.inr (Or.inr (deep _ hc (by simp)))
        | dispose =>
          simp only [next, enter, Res.bind_ok] at hn
          cases hn
          refine repl [.disposeSecond, .acts os] (by simpa [Frame.Plain] using hos) ?_
          rcases hsh with ⟨hl, rest, hc | hc | hc⟩ | ⟨_, hc⟩ | hc
          · cases hc; exact Or.inl ⟨hl, os, Or.inr (Or.inr rfl)⟩
          · cases hc
          · cases hc
          · cases hc
          · exact Or.inr (Or.inr (deep _ hc (by simp)))
        | store p =>
          simp only [next, enter, List.length_nil, ne_eq, not_true_eq_false, if_false, Res.bind_ok] at hn
          cases hn
          refine repl [.push p, .clipFirst, .clipSecond, .acts os] (by simpa [Frame.Plain] using hos) ?_
          rcases hsh with ⟨hl, rest, hc | hc | hc⟩ | ⟨_, hc⟩ | hc
          · cases hc; exact Or.inr (Or.inr ⟨[.push p], os, rfl⟩)
          · cases hc
          · cases hc
          · cases hc
          · exact Or.inr (Or.inr (deep _ hc (by simp)))
    | clipFirst =>
      -- popping the loop
      have pop : first.length ≤ 1024 → CInv ⟨⟨1024, first, [], deleted⟩, k, deleted ++ first⟩ := by
        intro hl
        refine repl [] (by simp) ?_
        rcases hsh with ⟨_, rest, hc | hc | hc⟩ | ⟨_, hc⟩ | ⟨u, rest, hu⟩
        · cases hc
        · cases hc
        · cases hc
        · cases hc
        · cases u with
          | nil => simp only [List.nil_append, List.cons.injEq, true_and] at hu; exact Or.inl ⟨hl, rest, Or.inr (Or.inl hu)⟩
          | cons g u =>
            simp only [List.cons_append, List.cons.injEq] at hu
            exact Or.inr (Or.inr ⟨u, rest, hu.2⟩)
      cases first with
      | nil =>
        simp only [next] at hn
        cases hn
        exact pop (by simp)
      | cons x rest =>
        by_cases hlen : rest.length + 1 > 1024
        · have hx0 : x ≠ 0 := fun e => h0' (by simp [e])
          simp only [next, deleteCmd, if_neg hx0, if_pos hlen] at hn
          obtain ⟨w, hw, hn⟩ := Res.bind_eq_ok.1 hn
          cases hn
          split at hw
          · cases hw
          · cases hw
            refine ⟨rfl, rfl, by simp, fun _ => by simp only; omega, ?_, ?_⟩
            · intro g hg
              rcases List.mem_cons.1 hg with rfl | hg
              · exact he x
              · exact hp g hg
            · right; right
              rcases hsh with ⟨hl, rest', _⟩ | ⟨hl, _⟩ | ⟨u, rest', hu⟩
              · simp only [List.length_cons] at hl; omega
              · simp only [List.length_cons] at hl; omega
              · exact ⟨.acts (eff x) :: u, rest', by simp [hu]⟩
        · simp only [next, if_neg hlen] at hn
          cases hn
          exact pop (by simp only [List.length_cons]; omega)

theorem CInv.reach {eff : Nat → List Op} (he : ∀ p, .undo ∉ eff p) {s t : St} (hr : Reach eff s t) (h : CInv s) (h0 : 0 ∉ t.handed) : CInv t := by
  induction hr with
  | refl => exact h
  | tail hr hn ih =>
    have hpre := next_handed hn
    exact CInv.step he (ih (fun hm => h0 (hpre.subset hm))) hn h0

end Verif.Command
