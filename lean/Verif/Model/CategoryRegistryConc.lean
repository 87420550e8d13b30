import Verif.Model.CategoryRegistry
/-
Concurrent view of CategoryRegistry (src/category_registry.cc): any number of threads run
`getStatus`, `updateEnabled` and `disableAll`; one step is one access to shared memory.
Sequentially consistent memory.
-/
namespace Phosphor.RegConc

/-- The operation of an updating thread. Code: category_registry.cc:102-126. -/
inductive Upd
  | update (enabled disabled : List Str)
  | disable

/-- Value assigned to `enabled_categories` (category_registry.cc:105,117). -/
def Upd.en : Upd → List Str
  | .update e _ => e
  | .disable => [[]]

/-- Value assigned to `disabled_categories` (category_registry.cc:106,118). -/
def Upd.dis : Upd → List Str
  | .update _ d => d
  | .disable => [[]]

/-- Program counter of one thread. Code: category_registry.cc:30-59, category_registry.cc:102-126.
-/
inductive Pc
  | idle
  /-- getStatus, lock-free loop (lines 34-38): loaded count `c`, next index `i`. -/
  | scan1 (n : Str) (c i : Nat)
  /-- about to lock the mutex (line 42) -/
  | wantLock (n : Str)
  /-- mutex held, about to load the count (line 43) -/
  | locked (n : Str)
  /-- second loop (lines 44-48) -/
  | scan2 (n : Str) (c i : Nat)
  /-- about to execute `groups[c] = n` (line 52) -/
  | writeGroup (n : Str) (c : Nat)
  /-- about to execute `group_statuses[c] = calculateEnabled(c)` (line 53) -/
  | writeStatus (n : Str) (c : Nat)
  /-- about to execute `group_count.fetch_add(1)` (line 54) -/
  | bump (n : Str) (c : Nat)
  /-- about to release the mutex and return cell `r` -/
  | unlockRet (n : Str) (r : Nat)
  /-- updateEnabled / disableAll: about to lock (lines 104, 116) -/
  | uWant (u : Upd)
  /-- about to assign `enabled_categories` -/
  | uEn (u : Upd)
  /-- about to assign `disabled_categories` -/
  | uDis (u : Upd)
  /-- about to load the count (lines 109, 121) -/
  | uLoad (u : Upd)
  /-- store loop (lines 110-112, 122-125) -/
  | uLoop (u : Upd) (c i : Nat)

/-- Shared state, thread program counters, and the history of finished lookups. Code:
category_registry.h:116-127. -/
structure St where
  groups : Nat → Str
  statuses : Nat → Bool
  count : Nat
  enabled : List Str
  disabled : List Str
  mutex : Option Nat
  pc : Nat → Pc
  /-- ghost: (group, returned cell) of every finished `getStatus` call, newest first -/
  results : List (Str × Nat)

/-- Point update of a function. Code: stores to the arrays, category_registry.cc:52-53. -/
def upd {α} (f : Nat → α) (i : Nat) (a : α) : Nat → α := fun j => if j = i then a else f j

@[simp] theorem upd_self {α} (f : Nat → α) (i : Nat) (a : α) : upd f i a i = a := by simp [upd]
theorem upd_ne {α} (f : Nat → α) {i j : Nat} (a : α) (h : j ≠ i) : upd f i a j = f j := by
  simp [upd, h]

/-- Initial state: the constructor (category_registry.cc:22-28); no call in progress. -/
def St.init : St where
  groups i := Registry.init.groups.getD i []
  statuses _ := false
  count := 3
  enabled := []
  disabled := []
  mutex := none
  pc _ := .idle
  results := []

/-- `s` with thread `t` at `p`. Code: category_registry.cc:30-59. -/
def St.goto (s : St) (t : Nat) (p : Pc) : St := { s with pc := upd s.pc t p }

/-- One step of thread `t`. Group names are C strings, so calls are made with NUL-free
names. Code: category_registry.cc:30-59, category_registry.cc:102-126. -/
inductive Step : St → St → Prop
  /-- call `getStatus(n)` and load the count (line 33) -/
  | call {s t n} : s.pc t = .idle → '\x00' ∉ n → Step s (s.goto t (.scan1 n s.count 0))
  /-- loop test fails (line 34) -/
  | scan1End {s t n c i} : s.pc t = .scan1 n c i → ¬ i < c → Step s (s.goto t (.wantLock n))
  /-- comparison succeeds (lines 35-36) -/
  | scan1Hit {s t n c i} : s.pc t = .scan1 n c i → i < c → s.groups i = n →
      Step s { s.goto t .idle with results := (n, i) :: s.results }
  /-- comparison fails (line 35) -/
  | scan1Miss {s t n c i} : s.pc t = .scan1 n c i → i < c → s.groups i ≠ n →
      Step s (s.goto t (.scan1 n c (i + 1)))
  /-- acquire the mutex (line 42) -/
  | lock {s t n} : s.pc t = .wantLock n → s.mutex = none →
      Step s { s.goto t (.locked n) with mutex := some t }
  /-- load the count again (line 43) -/
  | load2 {s t n} : s.pc t = .locked n → Step s (s.goto t (.scan2 n s.count 0))
  | scan2Hit {s t n c i} : s.pc t = .scan2 n c i → i < c → s.groups i = n →
      Step s (s.goto t (.unlockRet n i))
  | scan2Miss {s t n c i} : s.pc t = .scan2 n c i → i < c → s.groups i ≠ n →
      Step s (s.goto t (.scan2 n c (i + 1)))
  /-- loop ends and there is room (line 51) -/
  | room {s t n c i} : s.pc t = .scan2 n c i → ¬ i < c → c < registrySize →
      Step s (s.goto t (.writeGroup n c))
  /-- loop ends and the registry is full (lines 56-57) -/
  | full {s t n c i} : s.pc t = .scan2 n c i → ¬ i < c → ¬ c < registrySize →
      Step s (s.goto t (.unlockRet n 1))
  | writeGroup {s t n c} : s.pc t = .writeGroup n c →
      Step s { s.goto t (.writeStatus n c) with groups := upd s.groups c n }
  | writeStatus {s t n c} : s.pc t = .writeStatus n c →
      Step s { s.goto t (.bump n c) with
        statuses := upd s.statuses c (calculateEnabled (s.groups c) s.enabled s.disabled) }
  | bump {s t n c} : s.pc t = .bump n c →
      Step s { s.goto t (.unlockRet n c) with count := s.count + 1 }
  | ret {s t n r} : s.pc t = .unlockRet n r →
      Step s { s.goto t .idle with mutex := none, results := (n, r) :: s.results }
  /-- call `updateEnabled` or `disableAll` -/
  | callUpd {s t u} : s.pc t = .idle → Step s (s.goto t (.uWant u))
  | uLock {s t u} : s.pc t = .uWant u → s.mutex = none →
      Step s { s.goto t (.uEn u) with mutex := some t }
  | uEn {s t u} : s.pc t = .uEn u → Step s { s.goto t (.uDis u) with enabled := u.en }
  | uDis {s t u} : s.pc t = .uDis u → Step s { s.goto t (.uLoad u) with disabled := u.dis }
  | uLoad {s t u} : s.pc t = .uLoad u → Step s (s.goto t (.uLoop u s.count 0))
  /-- line 111 -/
  | uStore {s t e d c i} : s.pc t = .uLoop (.update e d) c i → i < c →
      Step s { s.goto t (.uLoop (.update e d) c (i + 1)) with
        statuses := upd s.statuses i (calculateEnabled (s.groups i) s.enabled s.disabled) }
  /-- line 123 -/
  | uClear {s t c i} : s.pc t = .uLoop .disable c i → i < c →
      Step s { s.goto t (.uLoop .disable c (i + 1)) with statuses := upd s.statuses i false }
  | uRet {s t u c i} : s.pc t = .uLoop u c i → ¬ i < c →
      Step s { s.goto t .idle with mutex := none }

/-- States reachable by any interleaving of any calls of any threads. Code:
category_registry.cc:22-126. -/
inductive Reachable : St → Prop
  | init : Reachable St.init
  | step {s s'} : Reachable s → Step s s' → Reachable s'

end Phosphor.RegConc
