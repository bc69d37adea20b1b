import Verif.Conc.QueueReenter

/-
C176: exceptions in message_queue_t.

`receive_message` (message_queue.h:74-80): `_queue.push(msg)` copies the message and may throw; the `unique_lock` then releases the
mutex, and nobody is notified.
* `std::queue`: the push has no effect then (the strong guarantee of the sequence containers).
* `std::priority_queue`: also when the copy throws; but when a comparison throws, the message is in the container already.

On the worker, the callbacks (:139, :155, :160) and the copy of the message in `pop` (:210, :214) may throw.  Nothing catches these
exceptions, neither in `run` nor in the function of the thread (thread.h:50), so the program ends (`std::terminate`).

The mutex and the condition variable themselves do not throw here (they do for resource exhaustion only).
-/

namespace Verif.MsgQueue

variable {α : Type}

structure XSt (α : Type) where
  base : St α
  doomed : Nat → Bool          -- the push of the client's present call will throw without effect
  dead : Bool                  -- `std::terminate` was called

def XSt.init : XSt α := ⟨Verif.MsgQueue.init, fun _ => false, false⟩

inductive XAct (α : Type) where
  | base (a : Act α)
  | callThrows (t : Nat) (m : α)   -- client `t` calls `receive_message(m)`, whose push will throw without effect
  | throwLate (t : Nat)            -- the push of client `t` throws after the insertion (a comparison of a `std::priority_queue`)
  | workerThrows                   -- a callback, or the copy in `pop`, throws
  deriving DecidableEq, Repr

/-- The worker executes code of the user. -/
def WPc.mayThrow : WPc α → Bool
  | .onStart | .handle _ | .onStop | .popTake => true
  | _ => false

/-- One step. -/
def stepX (pick : Pick α) (s : XSt α) (a : XAct α) : Option (XSt α) :=
  if s.dead then none
  else
    match a with
    | .callThrows t m =>
      match s.base.cpc t with
      | .idle => some { s with base := enter s.base t (.receive m), doomed := fun u => if u = t then true else s.doomed u }
      | _ => none
    | .throwLate t =>
      match s.base.cpc t with
      | .pushBody m =>
        if s.doomed t then none
        else some { s with base := { s.base.c t .idle with queue := s.base.queue ++ [m], mtx := none }.emit (.pushed t m) }
      | _ => none
    | .workerThrows => if s.base.wpc.mayThrow then some { s with dead := true } else none
    | .base (.client t) =>
      match s.base.cpc t with
      | .pushBody m =>
        if s.doomed t then
          some { s with base := { s.base.c t .idle with mtx := none }, doomed := fun u => if u = t then false else s.doomed u }
        else (client s.base t).map fun b => { s with base := b }
      | _ => (client s.base t).map fun b => { s with base := b }
    | .base a => (step pick s.base a).map fun b => { s with base := b }

def execX (pick : Pick α) (s : XSt α) : List (XAct α) → Option (XSt α)
  | [] => some s
  | a :: as => (stepX pick s a).bind fun s' => execX pick s' as

def ReachX (pick : Pick α) (s : XSt α) : Prop := ∃ sched, execX pick XSt.init sched = some s

/-! ### Without the calls that fail -/

/-- The mutex and the clients as if the calls that will throw had not been made. -/
def without (d : Nat → Bool) (b : St α) : St α :=
  { b with
    cpc := fun t => if d t then .idle else b.cpc t,
    mtx := match b.mtx with
      | some (.client t) => if d t then none else some (.client t)
      | m => m }

theorem without_none {d : Nat → Bool} {b : St α} (h : b.mtx = none) : (without d b).mtx = none := by
  simp [without, h]

theorem without_worker (pick : Pick α) (d : Nat → Bool) {b b' : St α} (h : worker pick b = some b') :
    worker pick (without d b) = some (without d b') := by
  have hw : (without d b).wpc = b.wpc := rfl
  have hq : (without d b).queue = b.queue := rfl
  unfold worker at h ⊢
  rw [hw, hq]
  cases hp : b.wpc <;> rw [hp] at h <;> simp only [reduceCtorEq] at h ⊢
  case clearEnter =>
    by_cases c : b.mtx = none
    · rw [if_pos c] at h
      rw [if_pos (without_none c)]
      injection h with h
      subst h
      rfl
    · rw [if_neg c] at h; cases h
  case popEnter =>
    by_cases c : b.mtx = none
    · rw [if_pos c] at h
      rw [if_pos (without_none c)]
      injection h with h
      subst h
      rfl
    · rw [if_neg c] at h; cases h
  case clearLoop =>
    by_cases c : b.queue.isEmpty
    · rw [if_pos c] at h ⊢
      injection h with h; subst h; rfl
    · rw [if_neg c] at h ⊢
      split at h <;> (injection h with h; subst h; rfl)
  case popTake => split at h <;> (injection h with h; subst h; rfl)
  case checkRunning => injection h with h; subst h; cases hr : b.running <;> simp [without, St.w, hr]
  case loopTest => injection h with h; subst h; cases hr : b.running <;> simp [without, St.w, hr]
  case testDiscard => injection h with h; subst h; cases hr : b.discard <;> simp [without, St.w, hr]
  case innerDiscard => injection h with h; subst h; cases hr : b.discard <;> simp [without, St.w, hr]
  case waitPred => injection h with h; subst h; split <;> rfl
  case innerPred => injection h with h; subst h; split <;> rfl
  all_goals injection h with h; subst h; rfl

theorem without_c {d : Nat → Bool} {b : St α} {t : Nat} (ht : d t = false) (p : CPc α) : without d (b.c t p) = (without d b).c t p := by
  simp only [without, St.c, St.mk.injEq, true_and, and_true]
  funext u
  by_cases c : u = t
  · subst c; simp [ht]
  · simp [c]

theorem without_client (d : Nat → Bool) {b b' : St α} {t : Nat} (ht : d t = false) (h : client b t = some b') :
    client (without d b) t = some (without d b') := by
  have hc : (without d b).cpc t = b.cpc t := by simp [without, ht]
  have hq : (without d b).queue = b.queue := rfl
  have hr : (without d b).running = b.running := rfl
  have hcp : ∀ p, (fun u => if u = t then p else (without d b).cpc u) = fun u => if d u then CPc.idle else if u = t then p else b.cpc u := by
    intro p
    funext u
    by_cases c : u = t
    · subst c; simp [ht]
    · simp [c, without]
  unfold client at h ⊢
  rw [hc]
  cases hp : b.cpc t <;> rw [hp] at h <;> simp only [reduceCtorEq] at h ⊢
  all_goals
    first
    | (by_cases c : b.mtx = none
       · rw [if_pos c] at h
         rw [if_pos (without_none c)]
         injection h with h
         subst h
         simp only [St.c, hcp, Option.some.injEq]
         simp [without, ht]
       · rw [if_neg c] at h; cases h)
    | (injection h with h
       subst h
       simp only [St.c, St.emit, hcp, hq, hr, Option.some.injEq]
       simp [without])

structure XInv (pick : Pick α) (s : XSt α) : Prop where
  reach : Reach pick (without s.doomed s.base)
  at_push : ∀ t, s.doomed t = true → ∃ m, s.base.cpc t = .pushEnter m ∨ s.base.cpc t = .pushBody m
  owner : ∀ t m, s.doomed t = true → s.base.cpc t = .pushBody m → s.base.mtx = some (.client t)

/-- What a step does to the mutex: whoever acquires it finds it free, whoever releases it owns it. -/
theorem worker_mtx {pick : Pick α} {b b' : St α} (h : worker pick b = some b') :
    b'.cpc = b.cpc ∧ (b'.mtx = b.mtx ∨ b.mtx = none ∨ b.wpc.owns = true) := by
  unfold worker at h
  cases hp : b.wpc <;> rw [hp] at h <;> simp only [reduceCtorEq] at h
  case clearEnter => split at h; next c => injection h with h; subst h; exact ⟨rfl, .inr (.inl c)⟩
                     cases h
  case popEnter => split at h; next c => injection h with h; subst h; exact ⟨rfl, .inr (.inl c)⟩
                   cases h
  case clearLoop =>
    refine ⟨?_, .inr (.inr rfl)⟩
    split at h
    · injection h with h; subst h; rfl
    · split at h <;> (injection h with h; subst h; rfl)
  case popTake => refine ⟨?_, .inr (.inr rfl)⟩; split at h <;> (injection h with h; subst h; rfl)
  case clearRelease => injection h with h; subst h; exact ⟨rfl, .inr (.inr rfl)⟩
  case popRelease => injection h with h; subst h; exact ⟨rfl, .inr (.inr rfl)⟩
  all_goals
    injection h with h
    first
    | (subst h; exact ⟨rfl, .inl rfl⟩)
    | (subst h; split <;> exact ⟨rfl, .inl rfl⟩)

theorem client_mtx {b b' : St α} {t : Nat} (h : client b t = some b') :
    (∀ u, u ≠ t → b'.cpc u = b.cpc u) ∧ (b'.mtx = b.mtx ∨ b.mtx = none ∨ (b.cpc t).owns = true) := by
  unfold client at h
  cases hp : b.cpc t <;> rw [hp] at h <;> simp only [reduceCtorEq] at h
  all_goals
    first
    | (split at h
       · next c =>
         injection h with h
         subst h
         exact ⟨fun u hu => by simp [St.c, hu], .inr (.inl c)⟩
       · cases h)
    | (injection h with h
       subst h
       refine ⟨fun u hu => by simp [St.c, St.emit, hu], ?_⟩
       first | exact .inl rfl | exact .inr (.inr rfl))

/-- If the state without the failing calls says that someone owns the mutex, nobody else does. -/
theorem not_owner {d : Nat → Bool} {b : St α} {o : Owner} (h : (without d b).mtx = some o) : b.mtx = some o := by
  cases hm : b.mtx with
  | none => rw [without_none hm] at h; cases h
  | some x =>
    cases x with
    | worker => simp [without, hm] at h; rw [h]
    | client t =>
      simp only [without, hm] at h
      split at h
      · cases h
      · exact h

theorem reachX_ind {pick : Pick α} {P : XSt α → Prop} (h0 : P XSt.init)
    (hstep : ∀ s a s', P s → stepX pick s a = some s' → P s') {s : XSt α} (h : ReachX pick s) : P s := by
  obtain ⟨sched, hs⟩ := h
  have : ∀ (sched : List (XAct α)) (s s' : XSt α), P s → execX pick s sched = some s' → P s' := by
    intro sched
    induction sched with
    | nil => intro s s' hp hs; injection hs with hs; subst hs; exact hp
    | cons a as ih =>
      intro s s' hp hs
      cases h1 : stepX pick s a with
      | none => simp [execX, h1] at hs
      | some s1 =>
        simp only [execX, h1, Option.bind_some] at hs
        exact ih s1 s' (hstep s a s1 hp h1) hs
  exact this sched _ s h0 hs

theorem reachX_inv {pick : Pick α} (hp : GoodPick pick) {s : XSt α} (h : ReachX pick s) : XInv pick s := by
  refine reachX_ind (P := XInv pick) ⟨⟨[], rfl⟩, (fun t h => by cases h), (fun t m h => by cases h)⟩ ?_ h
  intro s a s' hi hs
  have hI := (reach_einv hp hi.reach).1
  -- a step of `QueueModel` other than by a client whose call will throw
  have hbase : ∀ (b : St α) (a : Act α), step pick (without s.doomed s.base) a = some (without s.doomed b) →
      (∀ u, s.doomed u = true → b.cpc u = s.base.cpc u) →
      (b.mtx = s.base.mtx ∨ s.base.mtx = none ∨ ∃ o, s.base.mtx = some o ∧ ∀ u, s.doomed u = true → o ≠ .client u) →
      XInv pick { s with base := b } := by
    intro b a ha hc hm
    refine ⟨reach_step hi.reach ha, fun t ht => ?_, fun t m ht hb => ?_⟩
    · obtain ⟨m, h⟩ := hi.at_push t ht
      exact ⟨m, by simp only [hc t ht]; exact h⟩
    · simp only [hc t ht] at hb
      have ho := hi.owner t m ht hb
      rcases hm with hm | hm | ⟨o, hm, hno⟩
      · exact hm.trans ho
      · rw [ho] at hm; cases hm
      · rw [ho] at hm
        exact absurd (Option.some.inj hm).symm (hno t ht)
  unfold stepX at hs
  split at hs
  · cases hs
  cases a with
  | callThrows t m =>
    simp only at hs
    split at hs
    · next hc =>
      injection hs with hs
      subst hs
      have hnd : s.doomed t = false := by
        cases hd : s.doomed t with
        | false => rfl
        | true => obtain ⟨m', h | h⟩ := hi.at_push t hd <;> rw [hc] at h <;> cases h
      have hno : s.base.mtx ≠ some (.client t) := by
        intro hm
        have : (without s.doomed s.base).mtx = some (.client t) := by simp [without, hm, hnd]
        have h2 := (hI.cown t).2 this
        simp [without, hnd, hc, CPc.owns] at h2
      have heq : without (fun u => if u = t then true else s.doomed u) (enter s.base t (.receive m)) = without s.doomed s.base := by
        have h1 : (fun u => if (if u = t then true else s.doomed u) = true then CPc.idle else if u = t then CPc.pushEnter m else s.base.cpc u) =
            fun u => if s.doomed u = true then CPc.idle else s.base.cpc u := by
          funext u
          by_cases c : u = t
          · subst c; simp [hnd, hc]
          · simp [c]
        simp only [without, enter, St.c, h1, St.mk.injEq, true_and, and_true]
        cases hm : s.base.mtx with
        | none => rfl
        | some o =>
          cases o with
          | worker => rfl
          | client u =>
            have : u ≠ t := fun e => hno (by rw [hm, e])
            simp [this]
      refine ⟨heq ▸ hi.reach, fun u hu => ?_, fun u m' hu hb => ?_⟩
      · by_cases c : u = t
        · subst c; exact ⟨m, .inl (by simp [enter, St.c])⟩
        · simp only [if_neg c] at hu
          obtain ⟨m', h⟩ := hi.at_push u hu
          exact ⟨m', by simpa [enter, St.c, c] using h⟩
      · by_cases c : u = t
        · subst c; simp [enter, St.c] at hb
        · simp only [if_neg c] at hu
          simp only [enter, St.c, if_neg c] at hb
          exact hi.owner u m' hu hb
    · cases hs
  | throwLate t =>
    simp only at hs
    split at hs
    · next m hc =>
      split at hs
      · cases hs
      · next hd =>
        injection hs with hs
        subst hs
        have hd : s.doomed t = false := by simpa using hd
        have hct : (without s.doomed s.base).cpc t = .pushBody m := by simp [without, hd, hc]
        have hown : (without s.doomed s.base).mtx = some (.client t) := (hI.cown t).1 (by rw [hct]; rfl)
        have hown' := not_owner hown
        have hidle : ∀ p : CPc α, (fun u => if u = t then p else (without s.doomed s.base).cpc u) =
            fun u => if s.doomed u then CPc.idle else if u = t then p else s.base.cpc u := by
          intro p
          funext u
          by_cases c : u = t
          · subst c; simp [hd]
          · simp [c, without]
        -- the same as inserting, releasing and notifying
        have e1 : step pick (without s.doomed s.base) (.client t) = some ({ (without s.doomed s.base).c t .pushRelease with
            queue := s.base.queue ++ [m] }.emit (.pushed t m)) := by
          simp only [step, client, hct]; rfl
        have r1 := reach_step hi.reach e1
        have e2 : step pick ({ (without s.doomed s.base).c t .pushRelease with
            queue := s.base.queue ++ [m] }.emit (.pushed t m)) (.client t) = some ({ (without s.doomed s.base).c t .notify with
            queue := s.base.queue ++ [m], mtx := none }.emit (.pushed t m)) := by
          simp only [step, client, St.c, St.emit, if_true, Option.some.injEq, St.mk.injEq, true_and, and_true]
          funext u
          by_cases c : u = t <;> simp [c]
        have r2 := reach_step r1 e2
        have e3 : step pick ({ (without s.doomed s.base).c t .notify with
            queue := s.base.queue ++ [m], mtx := none }.emit (.pushed t m)) (.client t) = some (without s.doomed
            ({ s.base.c t .idle with queue := s.base.queue ++ [m], mtx := none }.emit (.pushed t m))) := by
          simp only [step, client, St.c, St.emit, if_true, Option.some.injEq]
          simp only [without, St.mk.injEq, true_and, and_true]
          funext u
          by_cases c : u = t
          · subst c; simp [hd]
          · simp [c]
        have r3 := reach_step r2 e3
        refine ⟨r3, fun u hu => ?_, fun u m' hu hb => ?_⟩
        · obtain ⟨m', h⟩ := hi.at_push u hu
          have : u ≠ t := fun e => by rw [e, hd] at hu; cases hu
          exact ⟨m', by simpa [St.c, St.emit, this] using h⟩
        · have : u ≠ t := fun e => by rw [e, hd] at hu; cases hu
          have h2 := hi.owner u m' hu (by simpa [St.c, St.emit, this] using hb)
          rw [hown'] at h2
          exact absurd (Owner.client.inj (Option.some.inj h2)).symm this
    · cases hs
  | workerThrows =>
    simp only at hs
    split at hs
    · injection hs with hs; subst hs; exact ⟨hi.reach, hi.at_push, hi.owner⟩
    · cases hs
  | base a =>
    have hcl : ∀ t b, s.doomed t = false → client s.base t = some b → XInv pick { s with base := b } := by
      intro t b hd hb
      obtain ⟨h1, h2⟩ := client_mtx hb
      refine hbase b (.client t) (without_client s.doomed hd hb) (fun u hu => h1 u (fun e => by rw [e, hd] at hu; cases hu)) ?_
      rcases h2 with h2 | h2 | h2
      · exact .inl h2
      · exact .inr (.inl h2)
      · have : (without s.doomed s.base).mtx = some (.client t) := (hI.cown t).1 (by simpa [without, hd] using h2)
        refine .inr (.inr ⟨_, not_owner this, fun u hu e => ?_⟩)
        rw [Owner.client.inj e, hu] at hd
        cases hd
    cases a with
    | client t =>
      simp only at hs
      cases hd : s.doomed t with
      | false =>
        split at hs
        · rw [hd] at hs
          simp only [Bool.false_eq_true, if_false] at hs
          rw [Option.map_eq_some_iff] at hs
          obtain ⟨b, hb, rfl⟩ := hs
          exact hcl t b hd hb
        · rw [Option.map_eq_some_iff] at hs
          obtain ⟨b, hb, rfl⟩ := hs
          exact hcl t b hd hb
      | true =>
        obtain ⟨m, hc⟩ := hi.at_push t hd
        rcases hc with hc | hc
        · -- acquires the mutex
          rw [hc] at hs
          simp only [client, hc] at hs
          by_cases c : s.base.mtx = none
          · simp only [if_pos c, Option.map_some, Option.some.injEq] at hs
            subst hs
            have heq : without s.doomed { s.base.c t (.pushBody m) with mtx := some (.client t) } = without s.doomed s.base := by
              simp only [without, St.c, St.mk.injEq, true_and, and_true]
              refine ⟨by simp [hd, c], ?_⟩
              funext u
              by_cases e : u = t
              · subst e; simp [hd]
              · simp [e]
            refine ⟨heq ▸ hi.reach, fun u hu => ?_, fun u m' hu hb => ?_⟩
            · by_cases e : u = t
              · subst e; exact ⟨m, .inr (by simp [St.c])⟩
              · obtain ⟨m', h⟩ := hi.at_push u hu
                exact ⟨m', by simpa [St.c, e] using h⟩
            · by_cases e : u = t
              · subst e; rfl
              · simp only [St.c, if_neg e] at hb
                have := hi.owner u m' hu hb
                rw [c] at this
                cases this
          · simp [if_neg c] at hs
        · -- throws
          have ho := hi.owner t m hd hc
          rw [hc] at hs
          simp only [hd, if_true, Option.some.injEq] at hs
          subst hs
          have heq : without (fun u => if u = t then false else s.doomed u) { s.base.c t .idle with mtx := none } =
              without s.doomed s.base := by
            simp only [without, St.c, St.mk.injEq, true_and, and_true]
            refine ⟨by simp [ho, hd], ?_⟩
            funext u
            by_cases e : u = t
            · subst e; simp [hd]
            · simp [e]
          refine ⟨heq ▸ hi.reach, fun u hu => ?_, fun u m' hu hb => ?_⟩
          · by_cases e : u = t
            · subst e; simp at hu
            · simp only [if_neg e] at hu
              obtain ⟨m', h⟩ := hi.at_push u hu
              exact ⟨m', by simpa [St.c, e] using h⟩
          · by_cases e : u = t
            · subst e; simp at hu
            · simp only [if_neg e] at hu
              simp only [St.c, if_neg e] at hb
              have := hi.owner u m' hu hb
              rw [ho] at this
              exact absurd (Owner.client.inj (Option.some.inj this)).symm e
    | worker =>
      simp only at hs
      rw [Option.map_eq_some_iff] at hs
      obtain ⟨b, hb, rfl⟩ := hs
      obtain ⟨h1, h2⟩ := worker_mtx (show worker pick s.base = some b from hb)
      refine hbase b .worker (without_worker pick s.doomed hb) (fun u _ => by rw [h1]) ?_
      rcases h2 with h2 | h2 | h2
      · exact .inl h2
      · exact .inr (.inl h2)
      · exact .inr (.inr ⟨_, not_owner (hI.wown.1 h2), fun u _ e => by cases e⟩)
    | call t op =>
      simp only [step] at hs
      rw [Option.map_eq_some_iff] at hs
      obtain ⟨b, hb, rfl⟩ := hs
      split at hb
      · next hc =>
        injection hb with hb
        subst hb
        have hd : s.doomed t = false := by
          cases hd : s.doomed t with
          | false => rfl
          | true => obtain ⟨m', h | h⟩ := hi.at_push t hd <;> rw [hc] at h <;> cases h
        refine hbase _ (.call t op) ?_ (fun u hu => ?_) (.inl ?_)
        · have : (without s.doomed s.base).cpc t = .idle := by simp [without, hd, hc]
          simp only [step, this, Option.some.injEq]
          cases op <;> simp only [enter, without_c hd]
        · have : u ≠ t := fun e => by rw [e, hd] at hu; cases hu
          cases op <;> simp [enter, St.c, this]
        · cases op <;> rfl
      · cases hb
    | start =>
      simp only [step] at hs
      rw [Option.map_eq_some_iff] at hs
      obtain ⟨b, hb, rfl⟩ := hs
      refine hbase b .start ?_ (fun u hu => ?_) (.inl ?_)
      all_goals
        cases hw : s.base.wpc <;> rw [hw] at hb <;> simp only [reduceCtorEq, Option.some.injEq] at hb <;> subst hb
      all_goals first | rfl | (simp [step, without, hw, St.w])
    | wake =>
      simp only [step] at hs
      rw [Option.map_eq_some_iff] at hs
      obtain ⟨b, hb, rfl⟩ := hs
      refine hbase b .wake ?_ (fun u hu => ?_) (.inl ?_)
      all_goals
        cases hw : s.base.wpc <;> rw [hw] at hb <;> simp only [reduceCtorEq, Option.some.injEq] at hb <;> subst hb
      all_goals first | rfl | (simp [step, without, hw, St.w])
    | timeout =>
      simp only [step] at hs
      rw [Option.map_eq_some_iff] at hs
      obtain ⟨b, hb, rfl⟩ := hs
      refine hbase b .timeout ?_ (fun u hu => ?_) (.inl ?_)
      all_goals
        cases hw : s.base.wpc <;> rw [hw] at hb <;> simp only [reduceCtorEq, Option.some.injEq] at hb <;> subst hb
      all_goals first | rfl | (simp [step, without, hw, St.w])

/-! ### C176 -/

/-- C176 (full statement): the program goes on, and the queue is in a state that it reaches without the calls that failed. -/
def C176_statement (α : Type) : Prop :=
  ∀ (pick : Pick α), GoodPick pick → ∀ s, ReachX pick s → s.dead = false ∧
    ∃ s', Reach pick s' ∧ s'.queue = s.base.queue ∧ s'.log = s.base.log ∧ s'.wpc = s.base.wpc ∧
      ∀ t, s.doomed t = false → s'.cpc t = s.base.cpc t

/-- **C176, partial.** Whatever calls of `receive_message` throw, the queue is in a state that it reaches without the calls that
threw before the insertion, and with those that threw after it; so everything proved about the container, the order of the
messages and the callbacks remains true.  A client whose call threw is not involved any more, and the mutex is free again.
Missing: exceptions on the worker (`C176_counterexample`, `C176_terminates`). -/
theorem C176_partial (pick : Pick α) (hp : GoodPick pick) (s : XSt α) (h : ReachX pick s) :
    ∃ s', Reach pick s' ∧ s'.queue = s.base.queue ∧ s'.log = s.base.log ∧ s'.wpc = s.base.wpc ∧ s'.running = s.base.running ∧
      s'.stopped = s.base.stopped ∧ s'.discard = s.base.discard ∧ (∀ t, s.doomed t = false → s'.cpc t = s.base.cpc t) ∧
      (∀ t, s.doomed t = true → s'.cpc t = .idle) ∧ (s.doomed = (fun _ => false) → s' = s.base) := by
  have hi := reachX_inv hp h
  refine ⟨_, hi.reach, rfl, rfl, rfl, rfl, rfl, rfl, fun t ht => by simp [without, ht], fun t ht => by simp [without, ht], fun hd => ?_⟩
  rw [hd]
  have hb : s.base = { s.base with mtx := s.base.mtx } := rfl
  rw [hb]
  simp only [without, Bool.false_eq_true, if_false, St.mk.injEq, true_and, and_true]
  cases s.base.mtx with
  | none => rfl
  | some o => cases o <;> rfl

/-- **C176:** a call that throws before the insertion: two steps after the client got the mutex free, the container and the log
are as before and the mutex is free. -/
theorem C176_fails (pick : Pick α) (s : XSt α) (t : Nat) (m : α) (hd : s.dead = false) (hc : s.base.cpc t = .idle)
    (hm : s.base.mtx = none) :
    ∃ s', execX pick s [.callThrows t m, .base (.client t), .base (.client t)] = some s' ∧ s'.base.queue = s.base.queue ∧
      s'.base.log = s.base.log ∧ s'.base.mtx = none ∧ s'.base.cpc t = .idle ∧ s'.doomed t = false ∧ s'.dead = false := by
  simp [execX, stepX, hd, hc, enter, St.c, client, hm]

/-- **C176:** an exception on the worker ends the program, wherever it is thrown. -/
theorem C176_terminates (pick : Pick α) (s : XSt α) (hd : s.dead = false) :
    (∃ s', stepX pick s .workerThrows = some s' ∧ s'.dead = true ∧ ∀ a, stepX pick s' a = none) ↔ s.base.wpc.mayThrow = true := by
  constructor
  · rintro ⟨s', h, -⟩
    by_cases c : s.base.wpc.mayThrow = true
    · exact c
    · simp [stepX, hd, c] at h
  · intro c
    exact ⟨{ s with dead := true }, by simp [stepX, hd, c], rfl, fun a => by simp [stepX]⟩

/-- **C176, counterexample:** the claim fails: `on_start` throws. -/
theorem C176_counterexample : ¬ C176_statement Nat := by
  intro h
  have he : ∃ s : XSt Nat, execX pickFront XSt.init [.base .start, .base .worker, .workerThrows] = some s ∧ s.dead = true := ⟨_, rfl, rfl⟩
  obtain ⟨s, e, hd⟩ := he
  have := (h pickFront goodFront s ⟨_, e⟩).1
  rw [hd] at this
  cases this

/-- **C176, counterexample:** a call that throws because of a comparison delivers its message all the same. -/
theorem C176_counterexample_late : ∃ s : XSt Nat, execX pickMax XSt.init [.base (.call 1 (.receive 7)), .base (.client 1), .throwLate 1] = some s ∧
    s.base.cpc 1 = .idle ∧ s.base.queue = [7] ∧ s.base.mtx = none := ⟨_, rfl, rfl, rfl, rfl⟩

/-- A failed call between two others. -/
example : (execX pickFront XSt.init ([.base (.call 1 (.receive 7)), .base (.client 1), .callThrows 2 8, .base (.client 1), .base (.client 1),
    .base (.client 2), .base (.client 2), .base (.call 2 (.receive 9)), .base (.client 2), .base (.client 2), .base (.client 2)] :
      List (XAct Nat))).map (fun s => (s.base.queue, s.base.log, s.dead)) =
    some ([7, 9], [.pushed 2 9, .pushed 1 7], false) := by decide

end Verif.MsgQueue
