import Verif.Model.Reader
/-!
# Helper lemmas: readers do not look behind what they need

`Stable x`: everything `x` does on an input, except running into its end, it does in the same way
when the input goes on.
-/
namespace Smdiff

/-- Outcomes other than end-of-input persist when the input is extended. -/
def StableAt {α : Type} (x : IOm Bytes α) (s q : Bytes) : Prop :=
  match x s with
  | (.ok a, r) => x (s ++ q) = (.ok a, r ++ q)
  | (.err .eof, _) => True
  | (.err e, _) => (x (s ++ q)).1 = .err e
  | (.panic, _) => (x (s ++ q)).1 = .panic
  | (.diverge, _) => (x (s ++ q)).1 = .diverge

def Stable {α : Type} (x : IOm Bytes α) : Prop := ∀ s q, StableAt x s q

theorem Stable.ok {α : Type} {x : IOm Bytes α} (h : Stable x) {s r : Bytes} {a : α}
    (he : x s = (.ok a, r)) (q : Bytes) : x (s ++ q) = (.ok a, r ++ q) := by
  have := h s q
  simpa [StableAt, he] using this

theorem stable_pure {α : Type} (a : α) : Stable (pure a : IOm Bytes α) := by
  intro s q; simp [StableAt]

theorem stable_lift {α : Type} (o : Outcome α) : Stable (IOm.lift o : IOm Bytes α) := by
  intro s q
  cases o with
  | err e => cases e <;> simp [StableAt]
  | _ => simp [StableAt]

theorem stable_throw {α : Type} (e : Err) : Stable (IOm.throw e : IOm Bytes α) :=
  stable_lift (.err e)

theorem stable_bind {α β : Type} {x : IOm Bytes α} {f : α → IOm Bytes β} (hx : Stable x)
    (hf : ∀ a, Stable (f a)) : Stable (x >>= f) := by
  intro s q
  have h := hx s q
  unfold StableAt at h ⊢
  rw [IOm.bind_run, IOm.bind_run]
  match hxs : x s with
  | (.ok a, r) =>
    rw [hxs] at h
    simp only at h
    have hf' := hf a r q
    unfold StableAt at hf'
    rw [h]
    exact hf'
  | (.err .eof, r) => simp
  | (.err .invalidData, r) =>
    rw [hxs] at h; simp only at h ⊢
    generalize x (s ++ q) = y at h
    rcases y with ⟨_ | _ | _ | _, _⟩ <;> simp_all
  | (.err .writeFail, r) | (.err .writeZero, r) | (.err .library, r) =>
    rw [hxs] at h; simp only at h ⊢
    generalize x (s ++ q) = y at h
    rcases y with ⟨_ | _ | _ | _, _⟩ <;> simp_all
  | (.panic, r) =>
    rw [hxs] at h; simp only at h ⊢
    generalize x (s ++ q) = y at h
    rcases y with ⟨_ | _ | _ | _, _⟩ <;> simp_all
  | (.diverge, r) =>
    rw [hxs] at h; simp only at h ⊢
    generalize x (s ++ q) = y at h
    rcases y with ⟨_ | _ | _ | _, _⟩ <;> simp_all

theorem stable_readU8 : Stable readU8 := by
  intro s q
  cases s <;> simp [StableAt, readU8]

theorem stable_readU16 : Stable readU16 := by
  intro s q
  match s with
  | [] => simp [StableAt, readU16]
  | [_] => simp [StableAt, readU16]
  | _ :: _ :: _ => simp [StableAt, readU16]

theorem stable_readExact (n : Nat) : Stable (readExact n) := by
  intro s q
  unfold StableAt readExact
  by_cases h : n ≤ s.length
  · simp only [h, if_true, List.length_append]
    rw [if_pos (by omega), List.take_append_of_le_length h, List.drop_append_of_le_length h]
  · simp [h]

theorem stable_readUVarintLoop (dbg : Bool) (s : Bytes) : ∀ (acc : UInt64) (sh : Nat) (q : Bytes),
    StableAt (readUVarintLoop dbg acc sh) s q := by
  induction s with
  | nil => intro acc sh q; simp [StableAt, readUVarintLoop]
  | cons b s ih =>
    intro acc sh q
    unfold StableAt
    rw [List.cons_append, readUVarintLoop, readUVarintLoop]
    by_cases h1 : (dbg && decide (64 ≤ sh)) = true
    · simp [h1]
    · simp only [h1]
      by_cases h2 : b &&& 0x80 = 0
      · simp [h2]
      · simp only [h2]
        exact ih _ _ q

theorem stable_readUVarint (dbg : Bool) : Stable (readUVarint dbg) :=
  fun s q => stable_readUVarintLoop dbg s 0 0 q

theorem stable_readIVarint (dbg : Bool) : Stable (readIVarint dbg) :=
  stable_bind (stable_readUVarint dbg) fun _ => stable_pure _

theorem stable_readOpByte : Stable readOpByte := by
  refine stable_bind stable_readU8 fun b => ?_
  simp only
  split
  · exact stable_pure _
  split
  · exact stable_pure _
  split
  · exact stable_pure _
  split
  · exact stable_pure _
  · exact stable_throw _

theorem stable_readSize (sz : Size) : Stable (readSize sz) := by
  cases sz
  · exact stable_pure _
  · exact stable_bind stable_readU8 fun _ => stable_pure _
  · exact stable_readU16

theorem stable_readOp (dbg : Bool) (a : Addrs) (inl : Bool) : Stable (readOp dbg a inl) := by
  refine stable_bind stable_readOpByte fun p => ?_
  rcases p with ⟨op, size⟩
  simp only
  split
  · exact stable_throw _
  · refine stable_bind (stable_readSize _) fun n => ?_
    rcases op with (_ | _) | _ | _
    · exact stable_bind (stable_readIVarint dbg) fun _ => stable_bind (stable_lift _) fun _ => stable_pure _
    · exact stable_bind (stable_readIVarint dbg) fun _ => stable_bind (stable_lift _) fun _ => stable_pure _
    · cases inl
      · exact stable_bind (stable_pure _) fun _ => stable_pure _
      · exact stable_bind (stable_readExact _) fun _ => stable_pure _
    · exact stable_bind stable_readU8 fun _ => stable_pure _

theorem stable_readOpsInter (dbg : Bool) (n : Nat) : ∀ a c, Stable (readOpsInter dbg n a c) := by
  induction n with
  | zero => intro a c; exact stable_pure _
  | succ n ih =>
    intro a c
    exact stable_bind (stable_readOp _ _ _) fun _ => stable_bind (stable_lift _) fun _ =>
      stable_bind (ih _ _) fun _ => stable_pure _

theorem stable_readOpsSeg (dbg : Bool) (n : Nat) : ∀ a c m, Stable (readOpsSeg dbg n a c m) := by
  induction n with
  | zero => intro a c m; exact stable_pure _
  | succ n ih =>
    intro a c m
    refine stable_bind (stable_readOp _ _ _) fun p => stable_bind (stable_lift _) fun c' => ?_
    split
    · exact stable_bind (stable_lift _) fun _ => stable_bind (ih _ _ _) fun _ => stable_pure _
    · exact stable_bind (stable_pure _) fun _ => stable_bind (ih _ _ _) fun _ => stable_pure _

theorem stable_fillAdds (ops : List Op) : Stable (fillAdds ops) := by
  induction ops with
  | nil => exact stable_pure _
  | cons op ops ih =>
    rcases op with _ | _ | _
    · exact stable_bind ih fun _ => stable_pure _
    · exact stable_bind ih fun _ => stable_pure _
    · exact stable_bind (stable_readExact _) fun _ => stable_bind ih fun _ => stable_pure _

theorem stable_readSectionHeader (dbg : Bool) : Stable (readSectionHeader dbg) := by
  refine stable_bind stable_readU8 fun b => stable_bind (stable_readUVarint dbg) fun n => ?_
  simp only
  have h2 : ∀ (x : UInt32) (f : UInt64 → UInt32 → SectionHeader) (c : Prop) [Decidable c],
      Stable (readUVarint dbg >>= fun v =>
        if c then (IOm.lift (addU32 dbg x v.toUInt32) >>= fun o => pure (f v o) : IOm Bytes SectionHeader)
        else (pure v.toUInt32 >>= fun o => pure (f v o))) := by
    intro x f c _
    refine stable_bind (stable_readUVarint dbg) fun v => ?_
    split
    · exact stable_bind (stable_lift _) fun _ => stable_pure _
    · exact stable_bind (stable_pure _) fun _ => stable_pure _
  split
  · exact stable_bind (stable_readUVarint dbg) fun _ => stable_bind (stable_pure _) fun x => h2 x _ _
  · exact stable_bind (stable_pure _) fun x => h2 x _ _

theorem stable_readOpsNoComp (dbg : Bool) (h : SectionHeader) : Stable (readOpsNoComp dbg h) := by
  unfold readOpsNoComp
  split
  · refine stable_bind (stable_readOpsSeg _ _ _ _ _) fun p => ?_
    rcases p with ⟨ops, c, m⟩
    simp only
    split
    · exact stable_throw _
    · exact stable_bind (stable_fillAdds _) fun _ => stable_pure _
  · refine stable_bind (stable_readOpsInter _ _ _ _) fun p => ?_
    rcases p with ⟨ops, c⟩
    simp only
    split
    · exact stable_throw _
    · exact stable_pure _

theorem stable_readSection (dbg : Bool) : Stable (readSection dbg) :=
  stable_bind (stable_readSectionHeader dbg) fun h => stable_readOpsNoComp dbg h

/-! ## Never panics -/

/-- Never panics and never loops. -/
def Tame {α : Type} (x : IOm Bytes α) : Prop := ∀ s, (x s).1 ≠ .panic ∧ (x s).1 ≠ .diverge

theorem tame_pure {α : Type} (a : α) : Tame (pure a : IOm Bytes α) := by intro s; simp
theorem tame_throw {α : Type} (e : Err) : Tame (IOm.throw e : IOm Bytes α) := by intro s; simp
theorem tame_lift {α : Type} {o : Outcome α} (h1 : o ≠ .panic) (h2 : o ≠ .diverge) :
    Tame (IOm.lift o : IOm Bytes α) := by intro s; simp [h1, h2]
theorem tame_bind {α β : Type} {x : IOm Bytes α} {f : α → IOm Bytes β} (hx : Tame x)
    (hf : ∀ a, Tame (f a)) : Tame (x >>= f) := by
  intro s
  rw [IOm.bind_run]
  have := hx s
  match hxs : x s with
  | (.ok a, r) => exact hf a r
  | (.err e, r) => simp
  | (.panic, r) => simp [hxs] at this
  | (.diverge, r) => simp [hxs] at this

theorem tame_readU8 : Tame readU8 := by intro s; cases s <;> simp [readU8]
theorem tame_readU16 : Tame readU16 := by
  intro s
  match s with
  | [] => simp [readU16]
  | [_] => simp [readU16]
  | _ :: _ :: _ => simp [readU16]
theorem tame_readExact (n : Nat) : Tame (readExact n) := by
  intro s; unfold readExact; split <;> simp
theorem tame_readUVarint : Tame (readUVarint false) := by
  have : ∀ s acc sh, (readUVarintLoop false acc sh s).1 ≠ .panic ∧
      (readUVarintLoop false acc sh s).1 ≠ .diverge := by
    intro s
    induction s with
    | nil => intro acc sh; simp [readUVarintLoop]
    | cons b s ih =>
      intro acc sh
      rw [readUVarintLoop]
      simp only [Bool.false_and, Bool.false_eq_true, if_false]
      split
      · simp
      · exact ih _ _
  intro s; exact this s 0 0
theorem tame_readIVarint : Tame (readIVarint false) := tame_bind tame_readUVarint fun _ => tame_pure _
theorem tame_addU32 (a b : UInt32) : Tame (IOm.lift (addU32 false a b) : IOm Bytes UInt32) :=
  tame_lift (by simp [addU32]) (by simp [addU32])
theorem tame_diff (a : UInt64) (b : BitVec 64) :
    Tame (IOm.lift (diffAddressesToU64 false a b) : IOm Bytes UInt64) := by
  apply tame_lift <;> · unfold diffAddressesToU64; split <;> simp

theorem tame_readOpByte : Tame readOpByte := by
  refine tame_bind tame_readU8 fun b => ?_
  simp only
  split
  · exact tame_pure _
  split
  · exact tame_pure _
  split
  · exact tame_pure _
  split
  · exact tame_pure _
  · exact tame_throw _

theorem tame_readSize (sz : Size) : Tame (readSize sz) := by
  cases sz
  · exact tame_pure _
  · exact tame_bind tame_readU8 fun _ => tame_pure _
  · exact tame_readU16

theorem tame_readOp (a : Addrs) (inl : Bool) : Tame (readOp false a inl) := by
  refine tame_bind tame_readOpByte fun p => ?_
  rcases p with ⟨op, size⟩
  simp only
  split
  · exact tame_throw _
  · refine tame_bind (tame_readSize _) fun n => ?_
    rcases op with (_ | _) | _ | _
    · exact tame_bind tame_readIVarint fun _ => tame_bind (tame_diff _ _) fun _ => tame_pure _
    · exact tame_bind tame_readIVarint fun _ => tame_bind (tame_diff _ _) fun _ => tame_pure _
    · cases inl
      · exact tame_bind (tame_pure _) fun _ => tame_pure _
      · exact tame_bind (tame_readExact _) fun _ => tame_pure _
    · exact tame_bind tame_readU8 fun _ => tame_pure _

theorem tame_readOpsInter (n : Nat) : ∀ a c, Tame (readOpsInter false n a c) := by
  induction n with
  | zero => intro a c; exact tame_pure _
  | succ n ih =>
    intro a c
    exact tame_bind (tame_readOp _ _) fun _ => tame_bind (tame_addU32 _ _) fun _ =>
      tame_bind (ih _ _) fun _ => tame_pure _

theorem tame_readOpsSeg (n : Nat) : ∀ a c m, Tame (readOpsSeg false n a c m) := by
  induction n with
  | zero => intro a c m; exact tame_pure _
  | succ n ih =>
    intro a c m
    refine tame_bind (tame_readOp _ _) fun p => tame_bind (tame_addU32 _ _) fun c' => ?_
    split
    · exact tame_bind (tame_addU32 _ _) fun _ => tame_bind (ih _ _ _) fun _ => tame_pure _
    · exact tame_bind (tame_pure _) fun _ => tame_bind (ih _ _ _) fun _ => tame_pure _

theorem tame_fillAdds (ops : List Op) : Tame (fillAdds ops) := by
  induction ops with
  | nil => exact tame_pure _
  | cons op ops ih =>
    rcases op with _ | _ | _
    · exact tame_bind ih fun _ => tame_pure _
    · exact tame_bind ih fun _ => tame_pure _
    · exact tame_bind (tame_readExact _) fun _ => tame_bind ih fun _ => tame_pure _

theorem tame_readSectionHeader : Tame (readSectionHeader false) := by
  refine tame_bind tame_readU8 fun b => tame_bind tame_readUVarint fun n => ?_
  simp only
  have h2 : ∀ (x : UInt32) (f : UInt64 → UInt32 → SectionHeader) (c : Prop) [Decidable c],
      Tame (readUVarint false >>= fun v =>
        if c then (IOm.lift (addU32 false x v.toUInt32) >>= fun o => pure (f v o) : IOm Bytes SectionHeader)
        else (pure v.toUInt32 >>= fun o => pure (f v o))) := by
    intro x f c _
    refine tame_bind tame_readUVarint fun v => ?_
    split
    · exact tame_bind (tame_addU32 _ _) fun _ => tame_pure _
    · exact tame_bind (tame_pure _) fun _ => tame_pure _
  split
  · exact tame_bind tame_readUVarint fun _ => tame_bind (tame_pure _) fun x => h2 x _ _
  · exact tame_bind (tame_pure _) fun x => h2 x _ _

theorem tame_readOpsNoComp (h : SectionHeader) : Tame (readOpsNoComp false h) := by
  unfold readOpsNoComp
  split
  · refine tame_bind (tame_readOpsSeg _ _ _ _) fun p => ?_
    rcases p with ⟨ops, c, m⟩
    simp only
    split
    · exact tame_throw _
    · exact tame_bind (tame_fillAdds _) fun _ => tame_pure _
  · refine tame_bind (tame_readOpsInter _ _ _) fun p => ?_
    rcases p with ⟨ops, c⟩
    simp only
    split
    · exact tame_throw _
    · exact tame_pure _

theorem tame_readSection : Tame (readSection false) :=
  tame_bind tame_readSectionHeader fun h => tame_readOpsNoComp h

/-! ## A debug build agrees with a release build unless it panics -/

/-- `x` (debug) panics or does what `y` (release) does. -/
def Agrees {σ α : Type} (x y : IOm σ α) : Prop := ∀ s, (x s).1 = .panic ∨ x s = y s

theorem agrees_refl {σ α : Type} (x : IOm σ α) : Agrees x x := fun _ => .inr rfl
theorem agrees_bind {σ α β : Type} {x y : IOm σ α} {f g : α → IOm σ β} (h : Agrees x y)
    (hf : ∀ a, Agrees (f a) (g a)) : Agrees (x >>= f) (y >>= g) := by
  intro s
  rw [IOm.bind_run, IOm.bind_run]
  rcases h s with h | h
  · left
    match hx : x s with
    | (.panic, r) => rfl
    | (.ok _, r) => simp [hx] at h
    | (.err _, r) => simp [hx] at h
    | (.diverge, r) => simp [hx] at h
  · rw [← h]
    match hx : x s with
    | (.panic, r) => left; rfl
    | (.ok a, r) => exact hf a r
    | (.err _, r) => right; rfl
    | (.diverge, r) => right; rfl
theorem agrees_lift {σ α : Type} {x y : Outcome α} (h : x = .panic ∨ x = y) :
    Agrees (IOm.lift x : IOm σ α) (IOm.lift y) := by
  intro s
  rcases h with h | h
  · left; simp [h]
  · right; simp [h]

theorem agrees_readUVarint : Agrees (readUVarint true) (readUVarint false) := by
  have : ∀ s acc sh, (readUVarintLoop true acc sh s).1 = .panic ∨
      readUVarintLoop true acc sh s = readUVarintLoop false acc sh s := by
    intro s
    induction s with
    | nil => intro acc sh; right; rfl
    | cons b s ih =>
      intro acc sh
      rw [readUVarintLoop, readUVarintLoop]
      by_cases h1 : 64 ≤ sh
      · left; simp [h1]
      · simp only [h1, decide_false, Bool.and_false, Bool.false_eq_true, if_false]
        by_cases h2 : b &&& 0x80 = 0
        · right; simp [h2]
        · simp only [h2, if_false]; exact ih _ _
  intro s; exact this s 0 0
theorem agrees_readIVarint : Agrees (readIVarint true) (readIVarint false) :=
  agrees_bind agrees_readUVarint fun _ => agrees_refl _
theorem agrees_addU32 {σ : Type} (a b : UInt32) :
    Agrees (IOm.lift (addU32 true a b) : IOm σ UInt32) (IOm.lift (addU32 false a b)) := by
  apply agrees_lift; unfold addU32; simp; by_cases h : 2 ^ 32 ≤ a.toNat + b.toNat
  · left; exact h
  · right; omega
theorem agrees_diff (a : UInt64) (b : BitVec 64) :
    Agrees (IOm.lift (diffAddressesToU64 true a b) : IOm Bytes UInt64)
      (IOm.lift (diffAddressesToU64 false a b)) := by
  apply agrees_lift; unfold diffAddressesToU64
  cases hm : b.msb <;> by_cases h : b = I64_MIN <;> simp [h]

theorem agrees_readOp (a : Addrs) (inl : Bool) : Agrees (readOp true a inl) (readOp false a inl) := by
  refine agrees_bind (agrees_refl _) fun p => ?_
  rcases p with ⟨op, size⟩
  simp only
  split
  · exact agrees_refl _
  · refine agrees_bind (agrees_refl _) fun n => ?_
    rcases op with (_ | _) | _ | _
    · exact agrees_bind agrees_readIVarint fun _ => agrees_bind (agrees_diff _ _) fun _ => agrees_refl _
    · exact agrees_bind agrees_readIVarint fun _ => agrees_bind (agrees_diff _ _) fun _ => agrees_refl _
    · exact agrees_refl _
    · exact agrees_refl _

theorem agrees_readOpsInter (n : Nat) : ∀ a c,
    Agrees (readOpsInter true n a c) (readOpsInter false n a c) := by
  induction n with
  | zero => intro a c; exact agrees_refl _
  | succ n ih =>
    intro a c
    exact agrees_bind (agrees_readOp _ _) fun _ => agrees_bind (agrees_addU32 _ _) fun _ =>
      agrees_bind (ih _ _) fun _ => agrees_refl _

theorem agrees_readOpsSeg (n : Nat) : ∀ a c m,
    Agrees (readOpsSeg true n a c m) (readOpsSeg false n a c m) := by
  induction n with
  | zero => intro a c m; exact agrees_refl _
  | succ n ih =>
    intro a c m
    refine agrees_bind (agrees_readOp _ _) fun p => agrees_bind (agrees_addU32 _ _) fun c' => ?_
    split
    · exact agrees_bind (agrees_addU32 _ _) fun _ => agrees_bind (ih _ _ _) fun _ => agrees_refl _
    · exact agrees_bind (agrees_refl _) fun _ => agrees_bind (ih _ _ _) fun _ => agrees_refl _

theorem agrees_readSectionHeader : Agrees (readSectionHeader true) (readSectionHeader false) := by
  refine agrees_bind (agrees_refl _) fun b => agrees_bind agrees_readUVarint fun n => ?_
  simp only
  have h2 : ∀ (x : UInt32) (f : UInt64 → UInt32 → SectionHeader) (c : Prop) [Decidable c],
      Agrees (readUVarint true >>= fun v =>
        if c then (IOm.lift (addU32 true x v.toUInt32) >>= fun o => pure (f v o) : IOm Bytes SectionHeader)
        else (pure v.toUInt32 >>= fun o => pure (f v o)))
        (readUVarint false >>= fun v =>
        if c then (IOm.lift (addU32 false x v.toUInt32) >>= fun o => pure (f v o) : IOm Bytes SectionHeader)
        else (pure v.toUInt32 >>= fun o => pure (f v o))) := by
    intro x f c _
    refine agrees_bind agrees_readUVarint fun v => ?_
    split
    · exact agrees_bind (agrees_addU32 _ _) fun _ => agrees_refl _
    · exact agrees_refl _
  split
  · exact agrees_bind agrees_readUVarint fun _ => agrees_bind (agrees_refl _) fun x => h2 x _ _
  · exact agrees_bind (agrees_refl _) fun x => h2 x _ _

theorem agrees_readOpsNoComp (h : SectionHeader) :
    Agrees (readOpsNoComp true h) (readOpsNoComp false h) := by
  unfold readOpsNoComp
  split
  · exact agrees_bind (agrees_readOpsSeg _ _ _ _) fun p => agrees_refl _
  · exact agrees_bind (agrees_readOpsInter _ _ _) fun p => agrees_refl _

theorem agrees_readSection : Agrees (readSection true) (readSection false) :=
  agrees_bind agrees_readSectionHeader fun h => agrees_readOpsNoComp h

end Smdiff
