import Verif.Model.CategoryRegistryConc
import Verif.Model.Weak
/-
Model of src/category_registry.cc and of the trace point code in phosphor-internal.h:34-100 with
the memory orders of the source. Any number of threads run `getStatus`, `updateEnabled`,
`disableAll` and trace points, and use other atomics (through which they may synchronise). One
step is one access to an atomic, together with the plain reads before it.
-/
namespace Phosphor.RegConc.W
open Phosphor.Weak

/-- Atomic locations: `group_count`, `group_statuses[i]` (category_registry.h:123-124), the static
pointer of trace point `p` (phosphor-internal.h:35-36), and any others. Code:
category_registry.h:123-124, phosphor-internal.h:35-36. -/
inductive Loc
  | count
  | status (i : Nat)
  | ptr (p : Nat)
  | ext (n : Nat)
  deriving DecidableEq

/-- Plain locations: `groups[i]`, `enabled_categories`, `disabled_categories`. Code:
category_registry.h:118, category_registry.h:126-127. -/
inductive Plain
  | group (i : Nat)
  | en
  | dis
  deriving DecidableEq

/-- Where a thread is: in a call of the registry (for a trace point, or not), or in a trace point.
Code: category_registry.cc:30-126, phosphor-internal.h:34-100. -/
inductive Pc
  | idle
  | reg (p : RegConc.Pc) (tp : Option Nat)
  /-- loaded a null pointer, about to call `getCategoryStatus` (phosphor-internal.h:72-73) -/
  | look (p : Nat)
  /-- about to store the pointer to cell `i` (phosphor-internal.h:74-76) -/
  | storing (p i : Nat)
  /-- about to load the status in cell `i` (phosphor-internal.h:96-98) -/
  | testing (p i : Nat)

/-- Memory, the plain data, the mutex and the knowledge it passes on. History: the finished
lookups, all configurations in the order they were installed, the configuration each status was
computed with, what was known when the update with that number finished, and the decisions of
trace points (thread, trace point, log or not), latest first. Code: category_registry.h:116-127,
phosphor-internal.h:96-99. -/
structure St where
  mem : Mem Loc Nat Plain
  groups : Nat → Str
  enabled : List Str
  disabled : List Str
  mutex : Option Nat
  mview : View Loc
  pc : Nat → Pc
  results : List (Str × Nat)
  confs : List (List Str × List Str)
  born : Nat → Nat → Nat
  fin : Nat → Option (View Loc)
  tested : List (Nat × Nat × Bool)

/-- The constructor: three groups, everything disabled; null pointers. Code:
category_registry.cc:22-28, phosphor-internal.h:35-36. -/
def St.init : St where
  mem := Mem.init fun l => match l with
    | .count => 3
    | _ => 0
  groups i := Registry.init.groups.getD i []
  enabled := []
  disabled := []
  mutex := none
  mview := View.bot
  pc _ := .idle
  results := []
  confs := [([], [])]
  born _ _ := 0
  fin _ := none
  tested := []

/-- Thread `t` goes to `p`, memory becomes `μ`. Code: category_registry.cc:30-126. -/
def St.goto (w : St) (t : Nat) (p : Pc) (μ : Mem Loc Nat Plain) : St :=
  { w with pc := setf w.pc t p, mem := μ }

/-- Where a thread goes when `getStatus` returns cell `i`. Code: phosphor-internal.h:72-76. -/
def ret : Option Nat → Nat → Pc
  | none, _ => .idle
  | some p, i => .storing p i

/-- `CategoryStatus` as a number. Code: category_registry.h:29. -/
def num (b : Bool) : Nat := if b then 1 else 0

/-- The plain reads of `calculateEnabled(i)`. Code: category_registry.cc:97-100. -/
def reads (μ : Mem Loc Nat Plain) (t i : Nat) : Mem Loc Nat Plain :=
  ((μ.read t (.group i)).read t .en).read t .dis

/-- One step. `cat p` is the category of trace point `p`. Code: category_registry.cc:30-126,
phosphor-internal.h:34-100. -/
inductive Step (cat : Nat → Str) : St → St → Prop
  /-- other plain accesses and other atomics -/
  | other {w t} : Step cat w { w with mem := w.mem.other t }
  | extLoad {w t n ts m} : w.mem.readable t (.ext n) ts m →
      Step cat w { w with mem := w.mem.loadAcq t (.ext n) ts m }
  | extStore {w t n ts v} : w.mem.free t (.ext n) ts →
      Step cat w { w with mem := w.mem.storeRel t (.ext n) ts v }
  /-- call `getStatus(n)`: `group_count.load(memory_order_acquire)` (line 33) -/
  | call {w t n ts m} : w.pc t = .idle → '\x00' ∉ n → w.mem.readable t .count ts m →
      Step cat w (w.goto t (.reg (.scan1 n m.val 0) none) (w.mem.loadAcq t .count ts m))
  /-- enter trace point `p`: load its pointer, acquire (phosphor-internal.h:37-39) -/
  | enter {w t p ts m} : w.pc t = .idle → w.mem.readable t (.ptr p) ts m → m.val ≠ 0 →
      Step cat w (w.goto t (.testing p (m.val - 1)) (w.mem.loadAcq t (.ptr p) ts m))
  | enterFirst {w t p ts m} : w.pc t = .idle → w.mem.readable t (.ptr p) ts m → m.val = 0 →
      Step cat w (w.goto t (.look p) (w.mem.loadAcq t (.ptr p) ts m))
  /-- call `getStatus` for trace point `p` -/
  | look {w t p ts m} : w.pc t = .look p → '\x00' ∉ cat p → w.mem.readable t .count ts m →
      Step cat w (w.goto t (.reg (.scan1 (cat p) m.val 0) (some p)) (w.mem.loadAcq t .count ts m))
  /-- loop test fails (line 34) -/
  | scan1End {w t n c i tp} : w.pc t = .reg (.scan1 n c i) tp → ¬ i < c →
      Step cat w (w.goto t (.reg (.wantLock n) tp) w.mem)
  /-- comparison succeeds (lines 35-36) -/
  | scan1Hit {w t n c i tp} : w.pc t = .reg (.scan1 n c i) tp → i < c → w.groups i = n →
      Step cat w { w.goto t (ret tp i) (w.mem.read t (.group i)) with
        results := (n, i) :: w.results }
  | scan1Miss {w t n c i tp} : w.pc t = .reg (.scan1 n c i) tp → i < c → w.groups i ≠ n →
      Step cat w (w.goto t (.reg (.scan1 n c (i + 1)) tp) (w.mem.read t (.group i)))
  /-- acquire the mutex (line 42) -/
  | lock {w t n tp} : w.pc t = .reg (.wantLock n) tp → w.mutex = none →
      Step cat w { w.goto t (.reg (.locked n) tp)
          { w.mem with view := setf w.mem.view t ((w.mem.view t).join w.mview) } with
        mutex := some t }
  /-- `group_count.load(memory_order_relaxed)` (line 43) -/
  | load2 {w t n tp ts m} : w.pc t = .reg (.locked n) tp → w.mem.readable t .count ts m →
      Step cat w (w.goto t (.reg (.scan2 n m.val 0) tp) (w.mem.loadRlx t .count ts))
  | scan2Hit {w t n c i tp} : w.pc t = .reg (.scan2 n c i) tp → i < c → w.groups i = n →
      Step cat w (w.goto t (.reg (.unlockRet n i) tp) (w.mem.read t (.group i)))
  | scan2Miss {w t n c i tp} : w.pc t = .reg (.scan2 n c i) tp → i < c → w.groups i ≠ n →
      Step cat w (w.goto t (.reg (.scan2 n c (i + 1)) tp) (w.mem.read t (.group i)))
  | room {w t n c i tp} : w.pc t = .reg (.scan2 n c i) tp → ¬ i < c → c < registrySize →
      Step cat w (w.goto t (.reg (.writeGroup n c) tp) w.mem)
  | full {w t n c i tp} : w.pc t = .reg (.scan2 n c i) tp → ¬ i < c → ¬ c < registrySize →
      Step cat w (w.goto t (.reg (.unlockRet n 1) tp) w.mem)
  /-- `groups[currIndex] = category_group` (line 52) -/
  | writeGroup {w t n c tp} : w.pc t = .reg (.writeGroup n c) tp →
      Step cat w { w.goto t (.reg (.writeStatus n c) tp) (w.mem.write t (.group c)) with
        groups := setf w.groups c n }
  /-- `group_statuses[currIndex] = calculateEnabled(currIndex)` (line 53), seq_cst -/
  | writeStatus {w t n c tp ts} : w.pc t = .reg (.writeStatus n c) tp →
      w.mem.free t (.status c) ts →
      Step cat w { w.goto t (.reg (.bump n c) tp) ((reads w.mem t c).storeRel t (.status c) ts
          (num (calculateEnabled (w.groups c) w.enabled w.disabled))) with
        born := setf w.born c (setf (w.born c) ts (w.confs.length - 1)) }
  /-- `group_count.fetch_add(1, memory_order_release)` (line 54) -/
  | bump {w t n c tp ts m} : w.pc t = .reg (.bump n c) tp → w.mem.readable t .count ts m →
      w.mem.hist .count (ts + 1) = none →
      Step cat w (w.goto t (.reg (.unlockRet n c) tp) (w.mem.rmwRel t .count ts m (m.val + 1)))
  /-- release the mutex and return -/
  | ret {w t n r tp} : w.pc t = .reg (.unlockRet n r) tp →
      Step cat w { w.goto t (ret tp r) w.mem with
        mutex := none
        mview := w.mem.view t
        results := (n, r) :: w.results }
  /-- call `updateEnabled` or `disableAll` -/
  | callUpd {w t u} : w.pc t = .idle → Step cat w (w.goto t (.reg (.uWant u) none) w.mem)
  | uLock {w t u tp} : w.pc t = .reg (.uWant u) tp → w.mutex = none →
      Step cat w { w.goto t (.reg (.uEn u) tp)
          { w.mem with view := setf w.mem.view t ((w.mem.view t).join w.mview) } with
        mutex := some t }
  | uEn {w t u tp} : w.pc t = .reg (.uEn u) tp →
      Step cat w { w.goto t (.reg (.uDis u) tp) (w.mem.write t .en) with enabled := u.en }
  | uDis {w t u tp} : w.pc t = .reg (.uDis u) tp →
      Step cat w { w.goto t (.reg (.uLoad u) tp) (w.mem.write t .dis) with
        disabled := u.dis
        confs := w.confs ++ [(u.en, u.dis)] }
  /-- `group_count.load(memory_order_relaxed)` (lines 109, 121) -/
  | uLoad {w t u tp ts m} : w.pc t = .reg (.uLoad u) tp → w.mem.readable t .count ts m →
      Step cat w (w.goto t (.reg (.uLoop u m.val 0) tp) (w.mem.loadRlx t .count ts))
  /-- line 111, relaxed -/
  | uStore {w t e d c i tp ts} : w.pc t = .reg (.uLoop (.update e d) c i) tp → i < c →
      w.mem.free t (.status i) ts →
      Step cat w { w.goto t (.reg (.uLoop (.update e d) c (i + 1)) tp)
          ((reads w.mem t i).storeRlx t (.status i) ts
            (num (calculateEnabled (w.groups i) w.enabled w.disabled))) with
        born := setf w.born i (setf (w.born i) ts (w.confs.length - 1)) }
  /-- lines 123-124, relaxed -/
  | uClear {w t c i tp ts} : w.pc t = .reg (.uLoop .disable c i) tp → i < c →
      w.mem.free t (.status i) ts →
      Step cat w { w.goto t (.reg (.uLoop .disable c (i + 1)) tp)
          (w.mem.storeRlx t (.status i) ts 0) with
        born := setf w.born i (setf (w.born i) ts (w.confs.length - 1)) }
  /-- release the mutex and return -/
  | uRet {w t u c i tp} : w.pc t = .reg (.uLoop u c i) tp → ¬ i < c →
      Step cat w { w.goto t .idle w.mem with
        mutex := none
        mview := w.mem.view t
        fin := setf w.fin (w.confs.length - 1) (some (w.mem.view t)) }
  /-- `category_enabled.store(…, memory_order_release)` (phosphor-internal.h:74-76) -/
  | store {w t p i ts} : w.pc t = .storing p i → w.mem.free t (.ptr p) ts →
      Step cat w (w.goto t (.testing p i) (w.mem.storeRel t (.ptr p) ts (i + 1)))
  /-- `category_enabled_temp->load(memory_order_acquire)` and the comparison with
  `Disabled` (phosphor-internal.h:96-98) -/
  | test {w t p i ts m} : w.pc t = .testing p i → w.mem.readable t (.status i) ts m →
      Step cat w { w.goto t .idle (w.mem.loadAcq t (.status i) ts m) with
        tested := (t, p, m.val != num false) :: w.tested }

/-- States reachable by any execution. Code: category_registry.cc:22-126,
phosphor-internal.h:34-100. -/
inductive Reachable (cat : Nat → Str) : St → Prop
  | init : Reachable cat St.init
  | step {w w'} : Reachable cat w → Step cat w w' → Reachable cat w'

end Phosphor.RegConc.W
