import Verif.Proof.TraceLogEvents
import Verif.Proof.TraceLogSafe
/-
How many chunks of the log's buffer are on loan, and to whom.
-/
namespace Phosphor.TLog
variable {ε : Type} {tid : Nat → Nat} {s s' : St ε} {t : Nat} {pol : Bool}

/-- In the middle of `evictThreads`. -/
def Pc.evicting : Pc ε → Bool
  | .held (.evict _ _) _ | .held (.evictClear _ _ _) _ | .held (.evictUnlock _ _ _) _ => true
  | _ => false

/-- Thread `u` has a chunk of buffer `b`. -/
def St.has (s : St ε) (b u : Nat) : Bool := (s.tenant u).chunk.any (fun c => c.1 == b)

/-- The number of registered threads that have a chunk of buffer `b`. -/
def St.owners (s : St ε) (b : Nat) : Nat := s.registered.countP (s.has b)

theorem countP_same {l : List Nat} {f g : Nat → Bool} (h : ∀ u ∈ l, f u = g u) : l.countP f = l.countP g := by
  induction l with
  | nil => rfl
  | cons a l ih =>
    simp only [List.countP_cons, h a (by simp), ih (fun u hu => h u (by simp [hu]))]

theorem countP_drop {l : List Nat} (hl : l.Nodup) {f g : Nat → Bool} {t : Nat} (ht : t ∈ l)
    (hf : f t = true) (hg : g t = false) (h : ∀ u ∈ l, u ≠ t → f u = g u) :
    l.countP f = l.countP g + 1 := by
  induction l with
  | nil => cases ht
  | cons a l ih =>
    rw [List.nodup_cons] at hl
    rcases List.mem_cons.1 ht with rfl | ht
    · have hs := countP_same (l := l) (f := f) (g := g) (fun u hu => h u (by simp [hu]) (fun e => hl.1 (e ▸ hu)))
      simp [hf, hg, hs]
    · have hne : a ≠ t := fun e => hl.1 (e ▸ ht)
      have := ih hl.2 ht (fun u hu => h u (by simp [hu]))
      simp only [List.countP_cons, this, h a (by simp) hne]
      omega

theorem countP_filter_ne {l : List Nat} {g : Nat → Bool} {t : Nat} (hg : g t = false) :
    (l.filter (· ≠ t)).countP g = l.countP g := by
  induction l with
  | nil => rfl
  | cons a l ih =>
    by_cases ha : a = t
    · subst ha; simpa [hg] using ih
    · simpa [ha, List.countP_cons] using ih

/-- What a step does to the loans of the log's buffer. -/
inductive Move (s : St ε) (t : Nat) (s' : St ε) : Prop
  | calm (loans : ∀ b, s.buffer = some b → (s'.heap b).onLoan = (s.heap b).onLoan)
      (chunk : ∀ u, (s'.tenant u).chunk = (s.tenant u).chunk)
      (reg : s'.registered = s.registered)
      (buf : ∀ b, s'.buffer = some b → s.buffer = some b)
      (on : s'.enabled = true → s.enabled = true ∨ (s.pc t).isEnable = true)
      (en : (s'.pc t).isEnable = true → (s.pc t).isEnable = true)
      (ev : (s'.pc t).evicting = true →
        (s.pc t).evicting = true ∧ (s'.pc t).pending.length = (s.pc t).pending.length ∨
        s.enabled = true ∧ (s'.pc t).pending = s.registered)
  | loan (p i : Nat) (hpc : (s.pc t).noChunk = true) (hptr : (s.pc t).bufPtr = some p)
      (loans : (s'.heap p).onLoan = (s.heap p).onLoan + 1)
      (chunk : ∀ u, (s'.tenant u).chunk = if u = t then some (p, i) else (s.tenant u).chunk)
      (reg : s'.registered = s.registered) (buf : s'.buffer = s.buffer) (on : s'.enabled = s.enabled)
      (en : (s'.pc t).isEnable = false) (ev : (s'.pc t).evicting = false)
  | ret (p i : Nat) (hc : (s.tenant t).chunk = some (p, i))
      (loans : (s'.heap p).onLoan = (s.heap p).onLoan - 1)
      (chunk : ∀ u, (s'.tenant u).chunk = if u = t then none else (s.tenant u).chunk)
      (reg : s'.registered = s.registered ∨ s'.registered = s.registered.filter (· ≠ t))
      (hold : s'.registered ≠ s.registered → (s.pc t).holdsMutex = true)
      (buf : s'.buffer = s.buffer) (on : s'.enabled = s.enabled)
      (en : (s'.pc t).isEnable = false) (ev : (s'.pc t).evicting = false)
  | clear (u : Nat) (rest : List Nat) (hpc : (s.pc t).evicting = true)
      (hpend : (s.pc t).pending = u :: rest) (loans : s'.heap = s.heap)
      (chunk : ∀ v, (s'.tenant v).chunk = if v = u then none else (s.tenant v).chunk)
      (reg : s'.registered = s.registered) (buf : s'.buffer = s.buffer) (on : s'.enabled = s.enabled)
      (en : (s'.pc t).isEnable = false) (ev : (s'.pc t).evicting = true) (hpend' : (s'.pc t).pending = rest)
  | create (n : Nat) (st : List Frame) (hpc : s.pc t = .held (.startCreate n) st)
      (loans : ∀ b, s'.buffer = some b → (s'.heap b).onLoan = 0)
      (chunk : ∀ u, (s'.tenant u).chunk = (s.tenant u).chunk)
      (reg : s'.registered = s.registered) (on : s'.enabled = s.enabled)
      (ev : (s'.pc t).evicting = false)
  | member (hc : (s.tenant t).chunk = none)
      (loans : s'.heap = s.heap)
      (chunk : ∀ u, (s'.tenant u).chunk = (s.tenant u).chunk)
      (reg : s'.registered = t :: s.registered ∨ s'.registered = s.registered.filter (· ≠ t))
      (hold : (s.pc t).holdsMutex = true)
      (buf : s'.buffer = s.buffer) (on : s'.enabled = s.enabled)
      (en : (s'.pc t).isEnable = false) (ev : (s'.pc t).evicting = false)

/-- A step that changes nothing of interest. -/
theorem Move.plain {q : Pc ε} (x : St ε) (h1 : x.heap = s.heap) (h2 : ∀ u, (x.tenant u).chunk = (s.tenant u).chunk)
    (h3 : x.registered = s.registered) (h4 : ∀ b, x.buffer = some b → s.buffer = some b)
    (h5 : x.enabled = s.enabled) (hq : q.isEnable = false) (hq' : q.evicting = false) : Move s t (x.goto t q) :=
  .calm (fun b _ => by rw [show (x.goto t q).heap = s.heap from h1]) h2 h3 h4
    (fun h => Or.inl (by rw [show (x.goto t q).enabled = s.enabled from h5] at h; exact h))
    (fun h => by rw [goto_pc, hq] at h; cases h) (fun h => by rw [goto_pc, hq'] at h; cases h)

theorem Move.stay : Move s t s :=
  .calm (fun _ _ => rfl) (fun _ => rfl) rfl (fun _ h => h) Or.inl id (fun h => Or.inl ⟨h, rfl⟩)

theorem setLock_chunk (s : St ε) (u v : Nat) (l : ChunkLock.State) :
    ((s.setLock u l).tenant v).chunk = (s.tenant v).chunk := by
  simp only [St.setLock, setf]; split
  · subst_vars; rfl
  · rfl

theorem setChunk_chunk (s : St ε) (u v : Nat) (c : Option (Nat × Nat)) :
    ((s.setChunk u c).tenant v).chunk = if v = u then c else (s.tenant v).chunk := by
  simp only [St.setChunk, setf]; split
  · rfl
  · rfl

theorem pop_move (x : St ε) (t : Nat) (st : List Frame) :
    ∃ q : Pc ε, q.isEnable = false ∧ q.evicting = false ∧ x.pop t st = x.goto t q := by
  match st with
  | [] => exact ⟨.release, rfl, rfl, rfl⟩
  | .resumeUser :: st => exact ⟨_, rfl, rfl, rfl⟩
  | .finishStart n :: st => exact ⟨_, rfl, rfl, rfl⟩

theorem unwind_move (x : St ε) (t : Nat) (st : List Frame) :
    ∃ q : Pc ε, q.isEnable = false ∧ q.evicting = false ∧ x.unwind t st = x.goto t q := by
  rw [unwind_eq]
  split
  · exact ⟨_, rfl, rfl, rfl⟩
  · exact ⟨_, rfl, rfl, rfl⟩

theorem returnChunk_onLoan (x : Buffer ε) (i : Nat) : (x.returnChunk i).onLoan = x.onLoan - 1 := by
  unfold Buffer.returnChunk; split <;> rfl

theorem ringClaim_onLoan {x x' : Buffer ε} {n : Nat} {o : Option Nat} (h : x.ringClaim n = (x', o)) :
    x'.onLoan = if o.isSome then x.onLoan + 1 else x.onLoan := by
  unfold Buffer.ringClaim at h
  dsimp only at h
  split at h <;> cases h <;> rfl

theorem fixed_onLoan {x x' : Buffer ε} {n : Nat} {g : GetChunk} (h : x.getChunkFixed n = (x', g)) :
    x'.onLoan = match g with | .chunk _ => x.onLoan + 1 | _ => x.onLoan := by
  unfold Buffer.getChunkFixed at h
  dsimp only at h
  split at h <;> cases h <;> rfl

theorem ringTake_onLoan {x x' : Buffer ε} {n i : Nat} (h : x.ringTake n = some (x', i)) :
    x'.onLoan = x.onLoan + 1 := by
  unfold Buffer.ringTake at h
  split at h
  · cases h
  · cases h; rfl

theorem pushAt_onLoan {x x' : Buffer ε} {i : Nat} {e : ε} {r : Res Unit} (h : x.pushAt i e = (x', r)) :
    x'.onLoan = x.onLoan := by
  unfold Buffer.pushAt at h
  split at h <;> cases h <;> rfl

theorem setBuf_onLoan (s : St ε) (p : Nat) (x : Buffer ε) (h : x.onLoan = (s.heap p).onLoan) (b : Nat) :
    ((s.setBuf p x).heap b).onLoan = (s.heap b).onLoan := by
  simp only [St.setBuf, setf]; split
  · subst_vars; exact h
  · rfl

theorem logStep_move {sp : Bool} (hs : s.logStep tid t sp = .to s') : Move s t s' := by
  have pl : ∀ q : Pc ε, q.isEnable = false → q.evicting = false → Move s t (s.goto t q) := fun q h1 h2 =>
    .plain s rfl (fun _ => rfl) rfl (fun _ h => h) rfl h1 h2
  have loan : ∀ (p i : Nat) (x : Buffer ε) (e : ε), (s.pc t).noChunk = true → (s.pc t).bufPtr = some p →
      x.onLoan = (s.heap p).onLoan + 1 →
      Move s t ((((s.setBuf p x).loaned t p i).setChunk t (some (p, i))).goto t (.store e)) := by
    intro p i x e h1 h2 h3
    refine .loan p i h1 h2 ?_ (fun u => ?_) rfl rfl rfl (by rw [goto_pc]; rfl) (by rw [goto_pc]; rfl)
    · simp [St.goto, St.setChunk, St.loaned, St.setBuf, h3]
    · exact setChunk_chunk _ _ _ _
  have buf : ∀ (p : Nat) (x : Buffer ε) (q : Pc ε), x.onLoan = (s.heap p).onLoan → q.isEnable = false →
      q.evicting = false → ∀ y : St ε, (∀ b, y.heap b = (s.setBuf p x).heap b) →
      (∀ u, (y.tenant u).chunk = (s.tenant u).chunk) → y.registered = s.registered → y.buffer = s.buffer →
      y.enabled = s.enabled → Move s t (y.goto t q) := by
    intro p x q h1 h2 h3 y h4 h5 h6 h7 h8
    refine .calm (fun b _ => ?_) h5 h6 (fun b hb => ?_) (fun h => ?_) (fun h => ?_) (fun h => ?_)
    · rw [show ((y.goto t q).heap b) = (s.setBuf p x).heap b from h4 b]
      exact setBuf_onLoan s p x h1 b
    · rw [← h7]; exact hb
    · left; rw [← h8]; exact h
    · rw [goto_pc, h2] at h; cases h
    · rw [goto_pc, h3] at h; cases h
  unfold St.logStep at hs
  split at hs
  case h_1 => cases hs; split <;> exact pl _ rfl rfl
  case h_2 =>
    split at hs <;> cases hs
    · exact .plain _ rfl (setLock_chunk s t · _) rfl (fun _ h => h) rfl rfl rfl
    · exact pl _ rfl rfl
    · exact .stay
  case h_3 => cases hs; split <;> exact pl _ rfl rfl
  case h_4 =>
    split at hs
    · cases hs; exact pl _ rfl rfl
    · split at hs
      · split at hs
        · cases hs; split <;> exact pl _ rfl rfl
        · cases hs
      · cases hs
  case h_5 =>
    split at hs <;> cases hs
    · split <;> exact pl _ rfl rfl
    · exact pl _ rfl rfl
  case h_6 =>
    split at hs
    · cases hs
    · cases hs; exact pl _ rfl rfl
  case h_7 e p hp =>
    split at hs
    · cases hs
    · rename_i b i hc
      split at hs
      · rename_i h
        obtain ⟨_, rfl⟩ := h
        cases hs
        refine .ret p i hc ?_ (fun u => setChunk_chunk _ _ _ _) (Or.inl rfl) (fun h => absurd rfl h) rfl rfl
          (by rw [goto_pc]; rfl) (by rw [goto_pc]; rfl)
        simp [St.goto, St.setChunk, St.setBuf, returnChunk_onLoan]
      · cases hs
  case h_8 => cases hs; split <;> exact pl _ rfl rfl
  case h_9 => cases hs; split <;> exact pl _ rfl rfl
  case h_10 =>
    split at hs
    · cases hs
    · cases hs; exact pl _ rfl rfl
  case h_11 e p hp =>
    split at hs
    · split at hs
      · split at hs <;> rename_i hx <;> cases hs
        · exact loan _ _ _ _ (by rw [hp]; rfl) (by rw [hp]; rfl) (by simpa using ringClaim_onLoan hx)
        · exact buf _ _ _ (by simpa using ringClaim_onLoan hx) rfl rfl _ (fun _ => rfl) (fun _ => rfl) rfl rfl rfl
      · split at hs <;> rename_i hx <;> cases hs
        · exact loan _ _ _ _ (by rw [hp]; rfl) (by rw [hp]; rfl) (by simpa using fixed_onLoan hx)
        · rename_i hne
          refine buf _ _ _ ?_ rfl rfl _ (fun _ => rfl) (fun _ => rfl) rfl rfl rfl
          have := fixed_onLoan hx
          split at this
          · exact (hne _ rfl).elim
          · exact this
    · cases hs
  case h_12 e p hp =>
    split at hs
    · split at hs
      · rename_i hx; cases hs
        exact loan _ _ _ _ (by rw [hp]; rfl) (by rw [hp]; rfl) (ringTake_onLoan hx)
      · cases hs; exact .stay
    · cases hs
  case h_13 => cases hs; exact pl _ rfl rfl
  case h_14 => cases hs; exact .plain _ rfl (setLock_chunk s t · _) rfl (fun _ h => h) rfl rfl rfl
  case h_15 =>
    split at hs <;> cases hs
    · exact .plain { s with owner := some t } rfl (fun _ => rfl) rfl (fun _ h => h) rfl rfl rfl
    · exact pl _ rfl rfl
  case h_16 =>
    split at hs
    · cases hs; exact pl _ rfl rfl
    · split at hs
      · rename_i he
        cases hs
        exact .calm (fun _ _ => rfl) (fun _ => rfl) rfl (fun _ h => h) (fun h => by cases h)
          (fun h => by rw [St.beginStop, goto_pc] at h; cases h)
          (fun _ => Or.inr ⟨he, by rw [St.beginStop, goto_pc]; rfl⟩)
      · cases hs; exact pl _ rfl rfl
  case h_17 e hp =>
    split at hs
    · cases hs
    · split at hs
      · split at hs
        · rename_i hx; cases hs
          exact buf _ _ _ (pushAt_onLoan hx) rfl rfl _ (fun _ => rfl) (fun _ => rfl) rfl rfl rfl
        · cases hs
      · cases hs
  case h_18 => cases hs; exact .plain _ rfl (setLock_chunk s t · _) rfl (fun _ h => h) rfl rfl rfl
  case h_19 => cases hs

theorem heldStep_move {other : Bool} (hc : Ctl s) (hs : s.heldStep tid t other = .to s') : Move s t s' := by
  unfold St.heldStep at hs
  split at hs
  case h_1 n hp =>
    cases hs
    unfold St.registerBody
    split
    · exact .plain { s with hist := _ } rfl (fun _ => rfl) rfl (fun _ h => h) rfl rfl rfl
    · rename_i hi
      have hn : (s.tenant t).chunk = none := by
        cases h : (s.tenant t).chunk with
        | none => rfl
        | some c => exact absurd (hc.chunkInit t (by rw [h]; simp)) hi
      have ht : ∀ u, (setf s.tenant t { s.tenant t with initialised := true } u).chunk = (s.tenant u).chunk := by
        intro u; simp only [setf]; split
        · subst_vars; rfl
        · rfl
      dsimp only
      split
      · exact .member hn rfl ht (Or.inl rfl) (by rw [hp]; rfl) rfl rfl (by rw [goto_pc]; rfl) (by rw [goto_pc]; rfl)
      · exact .member hn rfl ht (Or.inl rfl) (by rw [hp]; rfl) rfl rfl (by rw [goto_pc]; rfl) (by rw [goto_pc]; rfl)
  case h_2 hp =>
    split at hs
    · rename_i x hx
      cases hs
      unfold St.deregisterBody at hx
      split at hx
      · have ht : ∀ (y : St ε) u, y.tenant = s.tenant →
            (setf y.tenant t { y.tenant t with chunk := none, initialised := false } u).chunk =
              if u = t then none else (s.tenant u).chunk := by
          intro y u hy; simp only [setf, hy]; split <;> rfl
        have ht' : ∀ (y : St ε) u, y.tenant = s.tenant → (s.tenant t).chunk = none →
            (setf y.tenant t { y.tenant t with chunk := none, initialised := false } u).chunk =
              (s.tenant u).chunk := by
          intro y u hy hn; rw [ht y u hy]; split
          · subst_vars; exact hn.symm
          · rfl
        split at hx
        · cases hx
        · rename_i y hy
          unfold St.returnOwn at hy
          split at hy
          · rename_i hn
            cases hy
            dsimp only at hx
            split at hx <;> cases hx
            · exact .member hn rfl (fun u => ht' _ u rfl hn) (Or.inr rfl) (by rw [hp]; rfl) rfl rfl
                (by rw [goto_pc]; rfl) (by rw [goto_pc]; rfl)
            · exact .member hn rfl (fun u => ht' _ u rfl hn) (Or.inr rfl) (by rw [hp]; rfl) rfl rfl
                (by rw [goto_pc]; rfl) (by rw [goto_pc]; rfl)
          · rename_i b i hch
            have hb := hc.chunkBuf t b i hch
            rw [hb] at hy
            dsimp only at hy
            rw [if_pos rfl] at hy
            cases hy
            have hl : (setf s.heap b ((s.heap b).returnChunk i) b).onLoan = (s.heap b).onLoan - 1 := by
              simp [returnChunk_onLoan]
            dsimp only at hx
            split at hx <;> cases hx
            · exact .ret b i hch hl (fun u => ht _ u rfl) (Or.inr rfl) (fun _ => by rw [hp]; rfl) rfl rfl
                (by rw [goto_pc]; rfl) (by rw [goto_pc]; rfl)
            · exact .ret b i hch hl (fun u => ht _ u rfl) (Or.inr rfl) (fun _ => by rw [hp]; rfl) rfl rfl
                (by rw [goto_pc]; rfl) (by rw [goto_pc]; rfl)
      · cases hx; exact .plain { s with hist := _ } rfl (fun _ => rfl) rfl (fun _ h => h) rfl rfl rfl
    · cases hs
  case h_3 => cases hs; exact .plain { s with owner := none } rfl (fun _ => rfl) rfl (fun _ h => h) rfl rfl rfl
  case h_4 =>
    split at hs
    · cases hs; exact .plain { s with hist := _ } rfl (fun _ => rfl) rfl (fun _ h => h) rfl rfl rfl
    · cases hs
      obtain ⟨q, h1, h2, e⟩ := pop_move { s with hist := Item.noCall :: s.hist } t (by assumption)
      rw [e]
      exact .plain { s with hist := _ } rfl (fun _ => rfl) rfl (fun _ h => h) rfl h1 h2
  case h_5 u rest sh st hp =>
    split at hs
    · cases hs
      refine .calm (fun _ _ => rfl) (fun _ => rfl) rfl (fun _ h => h) Or.inl
        (fun h => by rw [goto_pc] at h; cases h) (fun _ => Or.inl ⟨by rw [hp]; rfl, ?_⟩)
      rw [goto_pc, hp]; simp [Pc.pending]
    · split at hs <;> cases hs
      · refine .calm (fun _ _ => rfl) (setLock_chunk s u · _) rfl (fun _ h => h) Or.inl
          (fun h => by rw [goto_pc] at h; cases h) (fun _ => Or.inl ⟨by rw [hp]; rfl, ?_⟩)
        rw [goto_pc, hp]; rfl
      · exact .stay
  case h_6 u rest sh st hp =>
    cases hs
    exact .clear u rest (by rw [hp]; rfl) (by rw [hp]; rfl) rfl (fun v => setChunk_chunk _ _ _ _) rfl rfl rfl
      (by rw [goto_pc]; rfl) (by rw [goto_pc]; rfl) (by rw [goto_pc]; rfl)
  case h_7 u rest sh st hp =>
    cases hs
    refine .calm (fun _ _ => rfl) (setLock_chunk s u · _) rfl (fun _ h => h) Or.inl
      (fun h => by rw [goto_pc] at h; cases h) (fun _ => Or.inl ⟨by rw [hp]; rfl, ?_⟩)
    rw [goto_pc, hp]; rfl
  case h_8 n st hp =>
    cases hs
    refine .create n st hp (fun b hb => ?_) (fun _ => rfl) rfl rfl (by rw [goto_pc]; rfl)
    cases hb
    simp only [St.goto, St.createBuffer, setf_self, makeBuffer]
    split <;> rfl
  case h_9 st hp =>
    cases hs
    obtain ⟨q, h1, h2, e⟩ := pop_move s.enable t st
    rw [e]
    exact .calm (fun _ _ => rfl) (fun _ => rfl) rfl (fun _ h => h) (fun _ => Or.inr (by rw [hp]; rfl))
      (fun h => by rw [goto_pc, h1] at h; cases h) (fun h => by rw [goto_pc, h2] at h; cases h)
  case h_10 => cases hs

theorem next_move {c : Choice ε} (hc : Ctl s) (hs : s.next pol tid t c = .to s') : Move s t s' := by
  have key : ∀ sp, (match s.logStep tid t sp with
      | .blocked => s.heldStep tid t sp
      | o => o) = .to s' → Move s t s' := by
    intro sp hs
    split at hs
    · exact heldStep_move hc hs
    · exact logStep_move hs
  have same : ∀ x : St ε, x.heap = s.heap → x.tenant = s.tenant → x.registered = s.registered →
      (∀ b, x.buffer = some b → s.buffer = some b) → x.enabled = s.enabled → x.pc = s.pc → Move s t x := by
    intro x h1 h2 h3 h4 h5 h6
    exact .calm (fun b _ => by rw [h1]) (fun u => by rw [h2]) h3 h4 (fun h => Or.inl (h5 ▸ h))
      (fun h => h6 ▸ h) (fun h => Or.inl ⟨h6 ▸ h, by rw [h6]⟩)
  have stop : ∀ (x : St ε) sh full st, s.enabled = true → x.heap = s.heap → x.tenant = s.tenant →
      x.registered = s.registered → x.buffer = s.buffer → Move s t (x.beginStop t sh full st) := by
    intro x sh full st he h1 h2 h3 h4
    refine .calm (fun b _ => ?_) (fun u => ?_) h3 (fun b h => ?_) (fun h => by cases h)
      (fun h => by rw [St.beginStop, goto_pc] at h; cases h)
      (fun _ => Or.inr ⟨he, by rw [St.beginStop, goto_pc, ← h3]; rfl⟩)
    · rw [show (x.beginStop t sh full st).heap = s.heap from h1]
    · rw [show (x.beginStop t sh full st).tenant = s.tenant from h2]
    · rw [← h4]; exact h
  unfold St.next at hs
  cases c with
  | step => exact key false hs
  | spurious => exact key true hs
  | log e =>
    dsimp only at hs; split at hs <;> cases hs
    exact .plain s rfl (fun _ => rfl) rfl (fun _ h => h) rfl rfl rfl
  | lock =>
    dsimp only at hs; split at hs <;> cases hs
    exact .plain { s with owner := some t } rfl (fun _ => rfl) rfl (fun _ h => h) rfl rfl rfl
  | register n =>
    dsimp only at hs; split at hs <;> cases hs
    exact .plain { s with owner := some t } rfl (fun _ => rfl) rfl (fun _ h => h) rfl rfl rfl
  | deregister =>
    dsimp only at hs; split at hs <;> cases hs
    exact .plain { s with owner := some t } rfl (fun _ => rfl) rfl (fun _ h => h) rfl rfl rfl
  | free c => dsimp only at hs; split at hs <;> cases hs; exact same _ rfl rfl rfl (fun _ h => h) rfl rfl
  | start cfg =>
    dsimp only at hs
    split at hs
    · split at hs
      · cases hs
      · split at hs
        · split at hs
          · cases hs; exact same _ rfl rfl rfl (fun _ h => h) rfl rfl
          · split at hs <;> rename_i he <;> cases hs
            · exact stop _ _ _ _ he rfl rfl rfl rfl
            · exact .plain { s with config := cfg, hist := .configure cfg :: s.hist } rfl (fun _ => rfl) rfl
                (fun _ h => h) rfl rfl rfl
        · cases hs
    · cases hs
  | stop sh =>
    dsimp only at hs
    split at hs
    · split at hs <;> rename_i he <;> cases hs
      · exact stop _ _ _ _ he rfl rfl rfl rfl
      · exact .stay
    · cases hs
  | getBuffer =>
    dsimp only at hs
    split at hs
    · split at hs <;> cases hs
      · exact same _ rfl rfl rfl (fun _ h => h) rfl rfl
      · exact same _ rfl rfl rfl (fun _ h => by cases h) rfl rfl
    · cases hs
  | getTraceContext =>
    dsimp only at hs
    split at hs
    · split at hs <;> cases hs
      · exact same _ rfl rfl rfl (fun _ h => h) rfl rfl
      · exact same _ rfl rfl rfl (fun _ h => by cases h) rfl rfl
    · cases hs
  | ret =>
    dsimp only at hs
    split at hs
    · rename_i st _
      cases hs
      obtain ⟨q, h1, h2, e⟩ := pop_move s t st
      rw [e]
      exact .plain s rfl (fun _ => rfl) rfl (fun _ h => h) rfl h1 h2
    · cases hs
  | throw =>
    dsimp only at hs
    split at hs
    · rename_i st _
      cases hs
      obtain ⟨q, h1, h2, e⟩ := unwind_move s t st
      rw [e]
      exact .plain s rfl (fun _ => rfl) rfl (fun _ h => h) rfl h1 h2
    · cases hs

/-- Loans of the log's buffer: while tracing is on, exactly those of the registered threads;
during an eviction at most one more per evicted thread. -/
structure Loan (s : St ε) : Prop where
  on : ∀ b, s.buffer = some b → s.enabled = true → (s.heap b).onLoan = s.owners b
  start : ∀ b t, s.buffer = some b → (s.pc t).isEnable = true → (s.heap b).onLoan = 0
  evict : ∀ b t, s.buffer = some b → (s.pc t).evicting = true →
    (s.pc t).pending.length ≤ s.registered.length ∧ (s.owners b : Int) ≤ (s.heap b).onLoan ∧
      (s.heap b).onLoan + (s.pc t).pending.length ≤ s.owners b + s.registered.length

theorem Pc.evicting_spec (p : Pc ε) (h : p.evicting = true) : p.holdsMutex = true ∧ p.isOff = true := by
  unfold Pc.evicting at h; split at h <;> simp_all [holdsMutex, isOff]

theorem Ctl.same_holder (h : Ctl s) {u v : Nat} (hu : (s.pc u).holdsMutex = true)
    (hv : (s.pc v).holdsMutex = true) : u = v := by
  have h1 := (h.own u).2 hu
  have h2 := (h.own v).2 hv
  rw [h1] at h2; cases h2; rfl

theorem Ctl.enable_none (h : Ctl s) (hp : (s.pc t).isEnable = true) (u : Nat) :
    ¬ ((s.tenant u).chunk ≠ none ∨ (s.pc u).committed = true) := by
  intro hu
  obtain ⟨h1, h2, h3, _⟩ := Pc.isEnable_spec _ hp
  rcases h.comm u hu with h' | h'
  · rw [h.off t h3] at h'; cases h'
  · simp only [St.pend, (h.own t).2 h1, h2] at h'; cases h'

theorem owners_same (hr : s'.registered = s.registered) (hc : ∀ u, (s'.tenant u).chunk = (s.tenant u).chunk)
    (b : Nat) : s'.owners b = s.owners b := by
  unfold St.owners; rw [hr]
  exact countP_same (fun u _ => by simp only [St.has, hc u])

theorem Loan.init : Loan (St.init : St ε) := by
  constructor
  · intro b hb; cases hb
  · intro b t hb; cases hb
  · intro b t hb; cases hb

theorem Loan.move (h : Loan s) (hc : Ctl s) {c : Choice ε} (hs : s.next pol tid t c = .to s') : Loan s' := by
  have other : ∀ u, u ≠ t → s'.pc u = s.pc u := fun u hu => next_pc hs hu
  cases next_move hc hs with
  | calm loans chunk reg buf on en ev =>
    have ho := owners_same reg chunk
    refine ⟨fun b hb he => ?_, fun b u hb hu => ?_, fun b u hb hu => ?_⟩
    · rw [loans b (buf b hb), ho]
      rcases on he with h1 | h1
      · exact h.on b (buf b hb) h1
      · rw [h.start b t (buf b hb) h1]
        unfold St.owners
        rw [List.countP_eq_zero.2]
        · rfl
        · intro u _ hu
          apply hc.enable_none h1 u
          left; intro hn
          rw [St.has, hn] at hu; cases hu
    · rw [loans b (buf b hb)]
      by_cases hut : u = t
      · subst hut; exact h.start b u (buf b hb) (en hu)
      · rw [other u hut] at hu; exact h.start b u (buf b hb) hu
    · rw [loans b (buf b hb), ho, reg]
      by_cases hut : u = t
      · subst hut
        rcases ev hu with ⟨h1, h2⟩ | ⟨h1, h2⟩
        · rw [h2]; exact h.evict b u (buf b hb) h1
        · rw [h2, h.on b (buf b hb) h1]; omega
      · rw [other u hut] at hu ⊢; exact h.evict b u (buf b hb) hu
  | loan p i hpc hptr loans chunk reg buf on en ev =>
    have hcom := Pc.noChunk_spec _ hpc
    have hbuf := hc.ptr t p hptr
    have hmem : t ∈ s.registered := (hc.reg t).2 (hc.pastInit t (Pc.committed_spec _ hcom).2)
    have hnone := hc.noChunk t hpc
    have ho : s'.owners p = s.owners p + 1 := by
      unfold St.owners
      rw [reg]
      refine countP_drop hc.nodup hmem ?_ ?_ ?_
      · simp [St.has, chunk]
      · simp [St.has, hnone]
      · intro u _ hu; simp [St.has, chunk, hu]
    have only : ∀ b, s'.buffer = some b → b = p := by
      intro b hb; rw [buf, hbuf] at hb; cases hb; rfl
    refine ⟨fun b hb he => ?_, fun b u hb hu => ?_, fun b u hb hu => ?_⟩ <;> cases only b hb
    · rw [loans, ho, h.on _ hbuf (on ▸ he)]; rfl
    · exfalso
      by_cases hut : u = t
      · subst hut; rw [en] at hu; cases hu
      · rw [other u hut] at hu
        exact hc.enable_none hu t (Or.inr hcom)
    · by_cases hut : u = t
      · subst hut; rw [ev] at hu; cases hu
      · rw [other u hut] at hu ⊢
        have := h.evict _ u hbuf hu
        rw [loans, ho, reg]
        omega
  | ret p i hch loans chunk reg hold buf on en ev =>
    have hbuf := hc.chunkBuf t p i hch
    have hmem : t ∈ s.registered := (hc.reg t).2 (hc.chunkInit t (by rw [hch]; simp))
    have ho : s.owners p = s'.owners p + 1 := by
      have hd : s.registered.countP (s.has p) = s.registered.countP (s'.has p) + 1 := by
        refine countP_drop hc.nodup hmem ?_ ?_ ?_
        · simp [St.has, hch]
        · simp [St.has, chunk]
        · intro u _ hu; simp [St.has, chunk, hu]
      unfold St.owners
      rcases reg with hr | hr
      · rw [hr]; exact hd
      · rw [hr, countP_filter_ne (by simp [St.has, chunk])]; exact hd
    have only : ∀ b, s'.buffer = some b → b = p := by
      intro b hb; rw [buf, hbuf] at hb; cases hb; rfl
    refine ⟨fun b hb he => ?_, fun b u hb hu => ?_, fun b u hb hu => ?_⟩ <;> cases only b hb
    · have := h.on _ hbuf (on ▸ he)
      rw [loans]; omega
    · exfalso
      by_cases hut : u = t
      · subst hut; rw [en] at hu; cases hu
      · rw [other u hut] at hu
        exact hc.enable_none hu t (Or.inl (by rw [hch]; simp))
    · by_cases hut : u = t
      · subst hut; rw [ev] at hu; cases hu
      · rw [other u hut] at hu ⊢
        have hr : s'.registered = s.registered := by
          apply Classical.byContradiction
          intro hne
          exact hut (hc.same_holder (Pc.evicting_spec _ hu).1 (hold hne))
        have := h.evict _ u hbuf hu
        rw [loans, hr]
        omega
  | clear u rest hpc hpend loans chunk reg buf on en ev hpend' =>
    have hh := (Pc.evicting_spec _ hpc).1
    refine ⟨fun b hb he => ?_, fun b v hb hv => ?_, fun b v hb hv => ?_⟩
    · rw [on, hc.off t (Pc.evicting_spec _ hpc).2] at he; cases he
    · exfalso
      by_cases hvt : v = t
      · subst hvt; rw [en] at hv; cases hv
      · rw [other v hvt] at hv
        exact hvt (hc.same_holder (Pc.isEnable_spec _ hv).1 hh)
    · by_cases hvt : v = t
      · subst hvt
        rw [buf] at hb
        have := h.evict b v hb hpc
        rw [hpend] at this
        rw [hpend', loans, reg]
        simp only [List.length_cons] at this
        have ho : s'.owners b = s.owners b ∨ s.owners b = s'.owners b + 1 := by
          unfold St.owners
          rw [reg]
          cases hu : s.has b u
          · left
            refine countP_same (fun w _ => ?_)
            by_cases hw : w = u
            · subst hw; rw [hu]; simp [St.has, chunk]
            · simp [St.has, chunk, hw]
          · right
            refine countP_drop hc.nodup ((hc.reg u).2 (hc.chunkInit u ?_)) hu ?_ ?_
            · intro hn; rw [St.has, hn] at hu; cases hu
            · simp [St.has, chunk]
            · intro w _ hw; simp [St.has, chunk, hw]
        omega
      · rw [other v hvt] at hv
        exact absurd (hc.same_holder (Pc.evicting_spec _ hv).1 hh) hvt
  | create n st hpc loans chunk reg on ev =>
    have hh : (s.pc t).holdsMutex = true := by rw [hpc]; rfl
    refine ⟨fun b hb he => ?_, fun b u hb _ => loans b hb, fun b u hb hu => ?_⟩
    · rw [on, hc.off t (by rw [hpc]; rfl)] at he; cases he
    · by_cases hut : u = t
      · subst hut; rw [ev] at hu; cases hu
      · rw [other u hut] at hu
        exact absurd (hc.same_holder (Pc.evicting_spec _ hu).1 hh) hut
  | member hn loans chunk reg hold buf on en ev =>
    have ho : ∀ b, s'.owners b = s.owners b := by
      intro b
      have hsame : s'.has b = s.has b := by funext u; simp only [St.has, chunk u]
      have ht : s.has b t = false := by simp [St.has, hn]
      unfold St.owners
      rw [hsame]
      rcases reg with hr | hr
      · rw [hr]; simp [ht]
      · rw [hr, countP_filter_ne ht]
    refine ⟨fun b hb he => ?_, fun b u hb hu => ?_, fun b u hb hu => ?_⟩
    · rw [loans, ho]; exact h.on b (buf ▸ hb) (on ▸ he)
    · by_cases hut : u = t
      · subst hut; rw [en] at hu; cases hu
      · rw [other u hut] at hu; rw [loans]; exact h.start b u (buf ▸ hb) hu
    · by_cases hut : u = t
      · subst hut; rw [ev] at hu; cases hu
      · rw [other u hut] at hu
        exact absurd (hc.same_holder (Pc.evicting_spec _ hu).1 hold) hut

theorem Reachable.loan (h : Reachable true tid s) : Loan s := by
  induction h with
  | init => exact .init
  | step hr hs ih => exact ih.move hr.ctl hs

/-- Every chunk a ring buffer has handed out is on loan or in the return queue. -/
def RingCount (x : Buffer ε) : Prop :=
  x.mode = .ring → (min x.counter x.size : Nat) = x.onLoan + x.queue.length

theorem resetAt_size (x : Buffer ε) (i n : Nat) : (x.resetAt i n).size = x.size := by
  simp [Buffer.resetAt, Buffer.size]

theorem BufOp.ringCount {x x' : Buffer ε} (h : BufOp tid x x') (hx : RingCount x) : RingCount x' := by
  intro hm
  have hsh := h.shape
  have hm0 : x.mode = .ring := by rw [← hsh.2.2]; exact hm
  have hx := hx hm0
  have hsz : x'.size = x.size := hsh.2.1
  cases h with
  | same => exact hx
  | ret i =>
    simp only [Buffer.returnChunk, hm0, Buffer.returnChunkRing, Buffer.size, List.length_append,
      List.length_singleton] at hx ⊢
    omega
  | claim n =>
    rw [hsz]
    unfold Buffer.ringClaim
    dsimp only
    split
    · rename_i hge
      have hge : x.size ≤ x.counter := hge
      show ((min (x.counter + 1) x.size : Nat) : Int) = x.onLoan + x.queue.length
      omega
    · rename_i hge
      have hge : ¬ x.size ≤ x.counter := hge
      show ((min (x.counter + 1) x.size : Nat) : Int) = (x.onLoan + 1) + x.queue.length
      omega
  | fixed n =>
    rw [hsz]
    unfold Buffer.getChunkFixed
    dsimp only
    split
    · rename_i hge
      have hge : x.size ≤ x.counter := hge
      show ((min (x.counter + 1) x.size : Nat) : Int) = x.onLoan + x.queue.length
      omega
    · rename_i hge
      have hge : ¬ x.size ≤ x.counter := hge
      show ((min (x.counter + 1) x.size : Nat) : Int) = (x.onLoan + 1) + x.queue.length
      omega
  | take _ n i h =>
    rw [hsz]
    unfold Buffer.ringTake at h
    split at h
    · cases h
    · rename_i j q hq
      cases h
      rw [hq] at hx
      show ((min x.counter x.size : Nat) : Int) = (x.onLoan + 1) + q.length
      simp only [List.length_cons] at hx
      omega
  | push i e =>
    rw [hsz]
    unfold Buffer.pushAt
    split
    · exact hx
    · exact hx

/-- A step makes no buffer, or the next one. -/
theorem next_new {c : Choice ε} (hs : s.next pol tid t c = .to s') :
    s'.nextBuf = s.nextBuf ∨
      s'.nextBuf = s.nextBuf + 1 ∧ ∃ n, s'.heap s.nextBuf = makeBuffer s.config s.generation n := by
  cases next_book hs with
  | calm new hn => exact Or.inl hn
  | free b hb e => subst e; exact Or.inl rfl
  | retrieve cs st hp he' e => subst e; exact Or.inl rfl
  | create n st hp e =>
    subst e
    exact Or.inr ⟨rfl, n, by simp [St.goto, St.createBuffer]⟩
  | enable st hp e =>
    subst e
    obtain ⟨q, _, e⟩ := pop_goto s.enable t st
    rw [e]; exact Or.inl rfl
  | reg n hp hi e =>
    subst e
    obtain ⟨e1, _⟩ := registerBody_frame (s := s) (tid := tid) (t := t) n
    exact Or.inl e1
  | dereg x hp hi hx e =>
    subst e
    obtain ⟨hp', rfl⟩ := deregisterBody_eq hi hx
    exact Or.inl rfl

theorem Reachable.ringCount (h : Reachable pol tid s) {b : Nat} (hb : b < s.nextBuf) : RingCount (s.heap b) := by
  induction h generalizing b with
  | init => cases hb
  | @step s s' t c hr hs ih =>
    rcases next_new hs with hn | ⟨hn, n, hx⟩
    · exact (next_bufop hs b (by omega)).ringCount (ih (by omega))
    · by_cases he : b = s.nextBuf
      · rw [he, hx]
        intro hm
        unfold makeBuffer
        split <;> simp [Buffer.makeRing, Buffer.makeFixed]
      · exact (next_bufop hs b he).ringCount (ih (by omega))

/-- A thread waits for a chunk only in a ring buffer whose chunks have all been handed out. -/
def Waits (s : St ε) : Prop :=
  ∀ t e p, s.pc t = .getWait e p → p < s.nextBuf ∧ (s.heap p).mode = .ring ∧ (s.heap p).size < (s.heap p).counter

theorem logStep_wait {sp : Bool} (hs : s.logStep tid t sp = .to s') {e : ε} {p : Nat}
    (hp' : s'.pc t = .getWait e p) :
    s.pc t = .getWait e p ∨ s.pc t = .getDo e p ∧ (s.heap p).mode = .ring ∧ (s.heap p).size < (s'.heap p).counter := by
  unfold St.logStep at hs
  split at hs
  case h_1 => cases hs; rw [goto_pc] at hp'; split at hp' <;> cases hp'
  case h_2 hp =>
    split at hs <;> cases hs
    · rw [goto_pc] at hp'; cases hp'
    · rw [goto_pc] at hp'; cases hp'
    · rw [hp] at hp'; cases hp'
  case h_3 => cases hs; rw [goto_pc] at hp'; split at hp' <;> cases hp'
  case h_4 =>
    split at hs
    · cases hs; rw [goto_pc] at hp'; cases hp'
    · split at hs
      · split at hs
        · cases hs; rw [goto_pc] at hp'; split at hp' <;> cases hp'
        · cases hs
      · cases hs
  case h_5 =>
    split at hs <;> cases hs
    · rw [goto_pc] at hp'; split at hp' <;> cases hp'
    · rw [goto_pc] at hp'; cases hp'
  case h_6 =>
    split at hs
    · cases hs
    · cases hs; rw [goto_pc] at hp'; cases hp'
  case h_7 =>
    split at hs
    · cases hs
    · split at hs
      · cases hs; rw [goto_pc] at hp'; cases hp'
      · cases hs
  case h_8 => cases hs; rw [goto_pc] at hp'; split at hp' <;> cases hp'
  case h_9 => cases hs; rw [goto_pc] at hp'; split at hp' <;> cases hp'
  case h_10 =>
    split at hs
    · cases hs
    · cases hs; rw [goto_pc] at hp'; cases hp'
  case h_11 hp =>
    split at hs
    · split at hs
      · rename_i hm
        split at hs <;> rename_i hx <;> cases hs
        · rw [goto_pc] at hp'; cases hp'
        · rw [goto_pc] at hp'
          cases hp'
          refine Or.inr ⟨hp, hm, ?_⟩
          unfold Buffer.ringClaim at hx
          dsimp only at hx
          split at hx
          · rename_i hge
            cases hx
            have hge : (s.heap p).size ≤ (s.heap p).counter := hge
            simp only [St.goto, St.setBuf, setf_self]
            omega
          · cases hx
      · split at hs <;> cases hs
        · rw [goto_pc] at hp'; cases hp'
        · rw [goto_pc] at hp'; cases hp'
    · cases hs
  case h_12 hp =>
    split at hs
    · split at hs
      · cases hs; rw [goto_pc] at hp'; cases hp'
      · cases hs; exact Or.inl hp'
    · cases hs
  case h_13 => cases hs; rw [goto_pc] at hp'; cases hp'
  case h_14 => cases hs; rw [goto_pc] at hp'; cases hp'
  case h_15 => split at hs <;> cases hs <;> rw [goto_pc] at hp' <;> cases hp'
  case h_16 =>
    split at hs
    · cases hs; rw [goto_pc] at hp'; cases hp'
    · split at hs
      · cases hs; rw [St.beginStop, goto_pc] at hp'; cases hp'
      · cases hs; rw [goto_pc] at hp'; cases hp'
  case h_17 =>
    split at hs
    · cases hs
    · split at hs
      · split at hs
        · cases hs; rw [goto_pc] at hp'; cases hp'
        · cases hs
      · cases hs
  case h_18 => cases hs; rw [goto_pc] at hp'; cases hp'
  case h_19 => cases hs

theorem pop_wait (x : St ε) (t : Nat) (st : List Frame) : ∀ e p, (x.pop t st).pc t ≠ .getWait e p := by
  intro e p
  match st with
  | [] => simp [St.pop, St.goto]
  | .resumeUser :: st => simp [St.pop, St.goto]
  | .finishStart n :: st => simp [St.pop, St.goto]

theorem heldStep_wait {o : Bool} (hs : s.heldStep tid t o = .to s') {e : ε} {p : Nat} :
    s'.pc t ≠ .getWait e p := by
  have mv : ∀ (x : St ε) (q : Pc ε), q ≠ .getWait e p → (x.goto t q).pc t ≠ .getWait e p := by
    intro x q hq; rw [goto_pc]; exact hq
  unfold St.heldStep at hs
  split at hs
  case h_1 => cases hs; exact mv _ _ (by simp)
  case h_2 =>
    split at hs
    · cases hs; exact mv _ _ (by simp)
    · cases hs
  case h_3 => cases hs; exact mv _ _ (by simp)
  case h_4 =>
    split at hs
    · cases hs; exact mv _ _ (by simp)
    · cases hs; exact pop_wait _ _ _ e p
  case h_5 hp =>
    split at hs
    · cases hs; exact mv _ _ (by simp)
    · split at hs <;> cases hs
      · exact mv _ _ (by simp)
      · rw [hp]; simp
  case h_6 => cases hs; exact mv _ _ (by simp)
  case h_7 => cases hs; exact mv _ _ (by simp)
  case h_8 => cases hs; exact mv _ _ (by simp)
  case h_9 => cases hs; exact pop_wait _ _ _ e p
  case h_10 => cases hs

theorem next_wait {c : Choice ε} (hs : s.next pol tid t c = .to s') {e : ε} {p : Nat}
    (hp' : s'.pc t = .getWait e p) :
    s.pc t = .getWait e p ∨ s.pc t = .getDo e p ∧ (s.heap p).mode = .ring ∧ (s.heap p).size < (s'.heap p).counter := by
  have key : ∀ sp, (match s.logStep tid t sp with
      | .blocked => s.heldStep tid t sp
      | o => o) = .to s' →
      s.pc t = .getWait e p ∨
        s.pc t = .getDo e p ∧ (s.heap p).mode = .ring ∧ (s.heap p).size < (s'.heap p).counter := by
    intro sp hs
    split at hs
    · exact absurd hp' (heldStep_wait hs)
    · exact logStep_wait hs hp'
  have mv : ∀ (x : St ε) (q : Pc ε), q ≠ .getWait e p → (x.goto t q).pc t ≠ .getWait e p := by
    intro x q hq; rw [goto_pc]; exact hq
  unfold St.next at hs
  cases c with
  | step => exact key false hs
  | spurious => exact key true hs
  | log e => dsimp only at hs; split at hs <;> cases hs; exact absurd hp' (mv _ _ (by simp))
  | lock => dsimp only at hs; split at hs <;> cases hs; exact absurd hp' (mv _ _ (by simp))
  | register n => dsimp only at hs; split at hs <;> cases hs; exact absurd hp' (mv _ _ (by simp))
  | deregister => dsimp only at hs; split at hs <;> cases hs; exact absurd hp' (mv _ _ (by simp))
  | free c => dsimp only at hs; split at hs <;> cases hs; exact Or.inl hp'
  | start cfg =>
    dsimp only at hs
    split at hs
    · split at hs
      · cases hs
      · split at hs
        · split at hs
          · cases hs; exact Or.inl hp'
          · split at hs <;> cases hs <;> exact absurd hp' (mv _ _ (by simp))
        · cases hs
    · cases hs
  | stop sh =>
    dsimp only at hs
    split at hs
    · split at hs <;> cases hs
      · exact absurd hp' (mv _ _ (by simp))
      · exact Or.inl hp'
    · cases hs
  | getBuffer =>
    dsimp only at hs
    split at hs
    · split at hs <;> cases hs <;> exact Or.inl hp'
    · cases hs
  | getTraceContext =>
    dsimp only at hs
    split at hs
    · split at hs <;> cases hs <;> exact Or.inl hp'
    · cases hs
  | ret =>
    dsimp only at hs
    split at hs
    · cases hs; exact absurd hp' (pop_wait _ _ _ e p)
    · cases hs
  | throw =>
    dsimp only at hs
    split at hs
    · rename_i st _
      cases hs
      rw [unwind_eq] at hp'
      split at hp' <;> exact absurd hp' (mv _ _ (by simp))
    · cases hs

theorem Reachable.waits (h : Reachable true tid s) : Waits s := by
  induction h with
  | init => intro t e p hp; cases hp
  | @step s s' t c hr hs ih =>
    intro u e p hp
    have old : p < s.nextBuf → (s.heap p).mode = .ring → (s.heap p).size < (s'.heap p).counter →
        p < s'.nextBuf ∧ (s'.heap p).mode = .ring ∧ (s'.heap p).size < (s'.heap p).counter := by
      intro h1 h2 h3
      have hb := next_bufop hs p (by omega)
      have hn : s.nextBuf ≤ s'.nextBuf := by
        rcases next_new hs with h | ⟨h, _⟩ <;> omega
      refine ⟨by omega, by rw [hb.shape.2.2]; exact h2, ?_⟩
      rw [show (s'.heap p).size = (s.heap p).size from hb.shape.2.1]; exact h3
    by_cases hu : u = t
    · subst hu
      rcases next_wait hs hp with hp | ⟨hp, hm, hl⟩
      · obtain ⟨h1, h2, h3⟩ := ih u e p hp
        exact old h1 h2 (Nat.lt_of_lt_of_le h3 (next_bufop hs p (by omega)).counter)
      · have hb := hr.ctl.ptr u p (by rw [hp]; rfl)
        have := hr.ctl.last p hb
        exact old (by omega) hm hl
    · rw [next_pc hs hu] at hp
      obtain ⟨h1, h2, h3⟩ := ih u e p hp
      exact old h1 h2 (Nat.lt_of_lt_of_le h3 (next_bufop hs p (by omega)).counter)

end Phosphor.TLog
