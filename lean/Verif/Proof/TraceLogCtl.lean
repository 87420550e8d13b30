import Verif.Proof.TraceLogInv
/-
Every step preserves the control invariant of the TraceLog model.
-/
namespace Phosphor.TLog
variable {ε : Type}

section steps
variable {s : St ε} {t : Nat} {e : ε}
set_option maxHeartbeats 1000000

theorem Ctl.readOff (h : Ctl s) (hp : s.pc t = .readEnabled e) :
    Ctl (s.goto t .idle) := by
  ctl s h hp (.idle : Pc ε)

theorem Ctl.readOn (h : Ctl s) (hp : s.pc t = .readEnabled e) :
    Ctl (s.goto t (.tryLock e)) := by
  ctl s h hp (.tryLock e : Pc ε)

theorem Ctl.tryOk (h : Ctl s) (hl : (s.tenant t).lock = .unlocked) (hp : s.pc t = .tryLock e) :
    Ctl ((s.setLock t .slaveLocked).goto t (.checkInit e)) := by
  ctl s h hp (.checkInit e : Pc ε)

theorem Ctl.tryFail (h : Ctl s) (hp : s.pc t = .tryLock e) :
    Ctl (s.goto t .idle) := by
  ctl s h hp (.idle : Pc ε)

theorem Ctl.initNo (h : Ctl s) (hp : s.pc t = .checkInit e) :
    Ctl (s.goto t .unlock) := by
  ctl s h hp (.unlock : Pc ε)

theorem Ctl.initYes (h : Ctl s) (hi : (s.tenant t).initialised = true) (hp : s.pc t = .checkInit e) :
    Ctl (s.goto t (.checkChunk e)) := by
  ctl s h hp (.checkChunk e : Pc ε)

theorem Ctl.chunkReplace (h : Ctl s) (hp : s.pc t = .checkChunk e) :
    Ctl (s.goto t (.recheck e)) := by
  ctl s h hp (.recheck e : Pc ε)

theorem Ctl.chunkUse (h : Ctl s) (hc : (s.tenant t).chunk ≠ none) (hp : s.pc t = .checkChunk e) :
    Ctl (s.goto t (.store e)) := by
  ctl s h hp (.store e : Pc ε)

theorem Ctl.recheckOff (h : Ctl s) (hp : s.pc t = .recheck e) :
    Ctl (s.goto t .unlock) := by
  ctl s h hp (.unlock : Pc ε)

theorem Ctl.recheckRet (h : Ctl s) (he : s.enabled = true) (hc : (s.tenant t).chunk ≠ none) (hp : s.pc t = .recheck e) :
    Ctl (s.goto t (.retLoad e)) := by
  ctl s h hp (.retLoad e : Pc ε)

theorem Ctl.recheckGet (h : Ctl s) (he : s.enabled = true) (hc : (s.tenant t).chunk = none) (hp : s.pc t = .recheck e) :
    Ctl (s.goto t (.getCheck e)) := by
  ctl s h hp (.getCheck e : Pc ε)

theorem Ctl.retLoad (h : Ctl s) {p : Nat} (hb : s.buffer = some p) (hp : s.pc t = .retLoad e) :
    Ctl (s.goto t (.retDo e p)) := by
  ctl s h hp (.retDo e p : Pc ε)

theorem Ctl.retDo (h : Ctl s) {p : Nat} {x : Buffer ε} (hp : s.pc t = .retDo e p) :
    Ctl (((s.setBuf p x).setChunk t none).goto t (.getCheck e)) := by
  ctl s h hp (.getCheck e : Pc ε)

theorem Ctl.checkOn (h : Ctl s) (hp : s.pc t = .getCheck e) :
    Ctl (s.goto t (.getNull e)) := by
  ctl s h hp (.getNull e : Pc ε)

theorem Ctl.checkOff (h : Ctl s) (he : s.enabled = false) (hp : s.pc t = .getCheck e) :
    Ctl (s.goto t (.failed none)) := by
  ctl s h hp (.failed none : Pc ε)

theorem Ctl.nullNo (h : Ctl s) (hp : s.pc t = .getNull e) :
    Ctl (s.goto t (.getLoad e)) := by
  ctl s h hp (.getLoad e : Pc ε)

theorem Ctl.nullYes (h : Ctl s) (hb : s.buffer = none) (hp : s.pc t = .getNull e) :
    Ctl (s.goto t (.failed none)) := by
  ctl s h hp (.failed none : Pc ε)

theorem Ctl.getLoad (h : Ctl s) {p : Nat} (hb : s.buffer = some p) (hp : s.pc t = .getLoad e) :
    Ctl (s.goto t (.getDo e p)) := by
  ctl s h hp (.getDo e p : Pc ε)

theorem Ctl.getOk (h : Ctl s) {p i : Nat} {x : Buffer ε} (hp : s.pc t = .getDo e p) :
    Ctl ((((s.setBuf p x).loaned t p i).setChunk t (some (p, i))).goto t (.store e)) := by
  ctl s h hp (.store e : Pc ε)

theorem Ctl.getWaits (h : Ctl s) {p : Nat} {x : Buffer ε} (hp : s.pc t = .getDo e p) :
    Ctl ((s.setBuf p x).goto t (.getWait e p)) := by
  ctl s h hp (.getWait e p : Pc ε)

theorem Ctl.getFull (h : Ctl s) {p : Nat} {x : Buffer ε} (hp : s.pc t = .getDo e p) :
    Ctl ((s.setBuf p x).goto t (.failed (some p))) := by
  ctl s h hp (.failed (some p) : Pc ε)

theorem Ctl.waitOk (h : Ctl s) {p i : Nat} {x : Buffer ε} (hp : s.pc t = .getWait e p) :
    Ctl ((((s.setBuf p x).loaned t p i).setChunk t (some (p, i))).goto t (.store e)) := by
  ctl s h hp (.store e : Pc ε)

theorem Ctl.failedNoneStep (h : Ctl s) (hp : s.pc t = .failed none) :
    Ctl (s.goto t (.failUnlock none s.generation)) := by
  ctl s h hp (.failUnlock none s.generation : Pc ε)

theorem Ctl.failedSomeStep (h : Ctl s) {p : Nat} (hp : s.pc t = .failed (some p)) :
    Ctl (s.goto t (.failUnlock (some p) s.generation)) := by
  ctl s h hp (.failUnlock (some p) s.generation : Pc ε)

theorem Ctl.failUnlock (h : Ctl s) {f : Option Nat} {g : Nat} (hp : s.pc t = .failUnlock f g) :
    Ctl ((s.setLock t .unlocked).goto t (.tryMutex f g)) := by
  ctl s h hp (.tryMutex f g : Pc ε)

theorem Ctl.mutexOk (h : Ctl s) {f : Option Nat} {g : Nat} (ho : s.owner = none) (hp : s.pc t = .tryMutex f g) :
    Ctl ({ s with owner := some t }.goto t (.compare f g)) := by
  ctl s h hp (.compare f g : Pc ε)

theorem Ctl.mutexNo (h : Ctl s) {f : Option Nat} {g : Nat} (hp : s.pc t = .tryMutex f g) :
    Ctl (s.goto t .idle) := by
  ctl s h hp (.idle : Pc ε)

theorem Ctl.compareNo (h : Ctl s) {f : Option Nat} {g : Nat} (hp : s.pc t = .compare f g) :
    Ctl (s.goto t .release) := by
  ctl s h hp (.release : Pc ε)

theorem Ctl.compareStop (h : Ctl s) {f : Option Nat} {g : Nat} (he : s.enabled = true) (hp : s.pc t = .compare f g) :
    Ctl (s.beginStop t false (some f) []) := by
  unfold St.beginStop
  ctl s h hp (.held (.evict s.registered false) [] : Pc ε)

theorem Ctl.store (h : Ctl s) {b i : Nat} {x : Buffer ε} (hp : s.pc t = .store e) :
    Ctl (((s.setBuf b x).recorded t b i e).goto t .unlock) := by
  ctl s h hp (.unlock : Pc ε)

theorem Ctl.unlock (h : Ctl s) (hp : s.pc t = .unlock) :
    Ctl ((s.setLock t .unlocked).goto t .idle) := by
  ctl s h hp (.idle : Pc ε)

theorem Ctl.release (h : Ctl s) (hp : s.pc t = .release) :
    Ctl ({ s with owner := none }.goto t .idle) := by
  ctl s h hp (.idle : Pc ε)

theorem Ctl.evictLock (h : Ctl s) {u : Nat} {rest : List Nat} {sh : Bool} {st : List Frame} (hl : (s.tenant u).lock = .unlocked) (hp : s.pc t = .held (.evict (u :: rest) sh) st) :
    Ctl ((s.setLock u .masterLocked).goto t (.held (.evictClear u rest sh) st)) := by
  ctl s h hp (.held (.evictClear u rest sh) st : Pc ε)

theorem Ctl.evictOther (h : Ctl s) {u : Nat} {rest : List Nat} {sh : Bool} {st : List Frame} (hp : s.pc t = .held (.evict (u :: rest) sh) st) :
    Ctl (s.goto t (.held (.evict (rest ++ [u]) sh) st)) := by
  ctl s h hp (.held (.evict (rest ++ [u]) sh) st : Pc ε)

theorem Ctl.evictClear (h : Ctl s) {u : Nat} {rest : List Nat} {sh : Bool} {st : List Frame} (hp : s.pc t = .held (.evictClear u rest sh) st) :
    Ctl ((s.setChunk u none).goto t (.held (.evictUnlock u rest sh) st)) := by
  ctl s h hp (.held (.evictUnlock u rest sh) st : Pc ε)

theorem Ctl.evictUnlock (h : Ctl s) {u : Nat} {rest : List Nat} {sh : Bool} {st : List Frame} (hp : s.pc t = .held (.evictUnlock u rest sh) st) :
    Ctl ((s.setLock u .unlocked).goto t (.held (.evict rest sh) st)) := by
  ctl s h hp (.held (.evict rest sh) st : Pc ε)

theorem Ctl.create (h : Ctl s) {st : List Frame} {n : Nat} (hp : s.pc t = .held (.startCreate n) st) :
    Ctl ((s.createBuffer n).goto t (.held .startEnable st)) := by
  ctl s h hp (.held .startEnable st : Pc ε)

theorem Ctl.callLog (h : Ctl s) (hp : s.pc t = .idle) :
    Ctl (s.goto t (.readEnabled e)) := by
  ctl s h hp (.readEnabled e : Pc ε)

theorem Ctl.callLock (h : Ctl s) (ho : s.owner = none) (hp : s.pc t = .idle) :
    Ctl ({ s with owner := some t }.goto t (.held .user [])) := by
  ctl s h hp (.held .user [] : Pc ε)

theorem Ctl.callReg (h : Ctl s) {n : Str} (ho : s.owner = none) (hp : s.pc t = .idle) :
    Ctl ({ s with owner := some t }.goto t (.regBody n)) := by
  ctl s h hp (.regBody n : Pc ε)

theorem Ctl.callDereg (h : Ctl s) (ho : s.owner = none) (hp : s.pc t = .idle) :
    Ctl ({ s with owner := some t }.goto t .deregBody) := by
  ctl s h hp (.deregBody : Pc ε)

theorem Ctl.finishPopUser (h : Ctl s) {st : List Frame} {n : Nat} (hp : s.pc t = .held .user (.finishStart n :: st)) :
    Ctl (s.goto t (.held (.startCreate n) st)) := by
  ctl s h hp (.held (.startCreate n) st : Pc ε)

theorem Ctl.resumePopUser (h : Ctl s) {st : List Frame} (hp : s.pc t = .held .user (.resumeUser :: st)) :
    Ctl (s.goto t (.held .user st)) := by
  ctl s h hp (.held .user st : Pc ε)

theorem Ctl.releaseUser (h : Ctl s) {st : List Frame} (hp : s.pc t = .held .user st) :
    Ctl (s.goto t .release) := by
  ctl s h hp (.release : Pc ε)

theorem Ctl.finishPop (h : Ctl s) {st : List Frame} {n : Nat} {sh : Bool} (hp : s.pc t = .held (.evict [] sh) (.finishStart n :: st)) :
    Ctl (s.goto t (.held (.startCreate n) st)) := by
  ctl s h hp (.held (.startCreate n) st : Pc ε)

theorem Ctl.resumePop (h : Ctl s) {st : List Frame} {sh : Bool} (hp : s.pc t = .held (.evict [] sh) (.resumeUser :: st)) :
    Ctl (s.goto t (.held .user st)) := by
  ctl s h hp (.held .user st : Pc ε)

theorem Ctl.releasePop (h : Ctl s) {st : List Frame} {sh : Bool} (hp : s.pc t = .held (.evict [] sh) st) :
    Ctl (s.goto t .release) := by
  ctl s h hp (.release : Pc ε)

theorem Ctl.callback (h : Ctl s) {st : List Frame} {sh : Bool} (hp : s.pc t = .held (.evict [] sh) st) :
    Ctl (s.goto t (.held .user st)) := by
  ctl s h hp (.held .user st : Pc ε)

theorem Ctl.enableResume (h : Ctl s) {st : List Frame} (hp : s.pc t = .held .startEnable (.resumeUser :: st)) :
    Ctl (s.enable.goto t (.held .user st)) := by
  ctl s h hp (.held .user st : Pc ε)

theorem Ctl.enableRelease (h : Ctl s) {st : List Frame} (hp : s.pc t = .held .startEnable st) :
    Ctl (s.enable.goto t .release) := by
  ctl s h hp (.release : Pc ε)

theorem Ctl.startStop (h : Ctl s) {st : List Frame} {n : Nat} (hst : finishing st = 0) (he : s.enabled = true) (hp : s.pc t = .held .user st) :
    Ctl (s.beginStop t false none (.finishStart n :: .resumeUser :: st)) := by
  unfold St.beginStop
  ctl s h hp (.held (.evict s.registered false) (.finishStart n :: .resumeUser :: st) : Pc ε)

theorem Ctl.startFresh (h : Ctl s) {st : List Frame} {n : Nat} (hst : finishing st = 0) (he : s.enabled = false) (hp : s.pc t = .held .user st) :
    Ctl (s.goto t (.held (.startCreate n) (.resumeUser :: st))) := by
  ctl s h hp (.held (.startCreate n) (.resumeUser :: st) : Pc ε)

theorem Ctl.stopUser (h : Ctl s) {st : List Frame} {sh : Bool} (he : s.enabled = true) (hp : s.pc t = .held .user st) :
    Ctl (s.beginStop t sh none (.resumeUser :: st)) := by
  unfold St.beginStop
  ctl s h hp (.held (.evict s.registered sh) (.resumeUser :: st) : Pc ε)

theorem Ctl.regOk (h : Ctl s) {n : Str} (hi : (s.tenant t).initialised = false) (hp : s.pc t = .regBody n) :
    Ctl (
      { s with
        tenant := setf s.tenant t { s.tenant t with initialised := true }
        registered := t :: s.registered }.goto t .release) := by
  ctl s h hp (.release : Pc ε)

theorem Ctl.regNo (h : Ctl s) {n : Str} (hp : s.pc t = .regBody n) :
    Ctl (s.goto t .release) := by
  ctl s h hp (.release : Pc ε)

theorem Ctl.deregOk (h : Ctl s) (_hi : (s.tenant t).initialised = true) (hp : s.pc t = .deregBody) :
    Ctl (
      { s with
        tenant := setf s.tenant t { s.tenant t with chunk := none, initialised := false }
        registered := s.registered.filter (· ≠ t) }.goto t .release) := by
  ctl s h hp (.release : Pc ε)

theorem Ctl.deregNo (h : Ctl s) (hp : s.pc t = .deregBody) :
    Ctl (s.goto t .release) := by
  ctl s h hp (.release : Pc ε)

theorem Ctl.retrieveUser (h : Ctl s) {st : List Frame} (he : s.enabled = false) (hp : s.pc t = .held .user st) :
    Ctl (s.retrieve.goto t (.held .user st)) := by
  ctl s h hp (.held .user st : Pc ε)

end steps
end Phosphor.TLog
