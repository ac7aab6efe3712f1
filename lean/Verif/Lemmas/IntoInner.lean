import Verif.Lemmas.Streams
/-!
# Helper lemmas: what reading keeps true of a reader
-/
namespace Smdiff
open Spec

variable {σ : Type}

/-- `x` keeps `Q` true. -/
def Keeps {α : Type} (Q : σ → Prop) (x : IOm σ α) : Prop := ∀ s, Q s → Q (x s).2

section
variable {Q : σ → Prop}


theorem keeps_lift {α : Type} (r : Outcome α) : Keeps (σ := σ) Q (IOm.lift r) := fun _ h => h

theorem keeps_pure {α : Type} (a : α) : Keeps (σ := σ) Q (pure a) := fun _ h => h

theorem keeps_throw {α : Type} (e : Err) : Keeps (σ := σ) (α := α) Q (IOm.throw e) := fun _ h => h

theorem keeps_bind {α β : Type} {x : IOm σ α} {f : α → IOm σ β} (h : Keeps Q x) (hf : ∀ a, Keeps Q (f a)) :
    Keeps Q (x >>= f) := by
  intro s hs
  have := h s hs
  rw [IOm.bind_run]
  rcases hx : x s with ⟨_ | _ | _ | _, s'⟩ <;> rw [hx] at this
  · exact hf _ s' this
  all_goals exact this

theorem keeps_ite {α : Type} {c : Prop} [Decidable c] {x y : IOm σ α} (h : Keeps Q x) (h' : Keeps Q y) :
    Keeps Q (if c then x else y) := by
  split
  · exact h
  · exact h'

variable [Read σ]
variable (hQ : ∀ n s, Q s → Q (Read.read n s).2)
include hQ

theorem keeps_readExactLoop : ∀ f n, Keeps (σ := σ) Q (On.readExactLoop f n) := by
  intro f
  induction f with
  | zero => intro n s h; exact h
  | succ f ih =>
    intro n s h
    rcases n with _ | n
    · exact h
    · rw [On.readExactLoop]
      have h' := hQ (n + 1) s h
      rcases hr : Read.read (n + 1) s with ⟨(_ | ⟨b, bs⟩) | _ | e, s'⟩ <;> rw [hr] at h'
      · exact h'
      · simp only
        have h2 := ih (n + 1 - (b :: bs).length) s' h'
        rcases hx : On.readExactLoop f (n + 1 - (b :: bs).length) s' with ⟨_ | _ | _ | _, s2⟩ <;> rw [hx] at h2 <;>
          exact h2
      · exact ih (n + 1) s' h'
      · exact h'

theorem keeps_readExact (n : Nat) : Keeps (σ := σ) Q (On.readExact n) := fun s h => keeps_readExactLoop hQ _ n s h

theorem keeps_readU8 : Keeps (σ := σ) Q On.readU8 := keeps_bind (keeps_readExact hQ 1) fun _ => keeps_lift _

theorem keeps_readU16 : Keeps (σ := σ) Q On.readU16 :=
  keeps_bind (keeps_readExact hQ 2) fun _ => keeps_bind (keeps_lift _) fun _ => keeps_bind (keeps_lift _) fun _ =>
    keeps_pure _

theorem keeps_varintLoop (dbg : Bool) : ∀ f r n, Keeps (σ := σ) Q (On.readUVarintLoop dbg f r n) := by
  intro f
  induction f with
  | zero => intro r n; exact keeps_lift _
  | succ f ih =>
    intro r n
    exact keeps_bind (keeps_readU8 hQ) fun _ => keeps_bind (keeps_lift _) fun _ => keeps_ite (keeps_pure _) (ih _ _)

theorem keeps_readUVarint (dbg : Bool) : Keeps (σ := σ) Q (On.readUVarint dbg) := fun s h =>
  keeps_varintLoop hQ dbg _ 0 0 s h

theorem keeps_readIVarint (dbg : Bool) : Keeps (σ := σ) Q (On.readIVarint dbg) :=
  keeps_bind (keeps_readUVarint hQ dbg) fun _ => keeps_pure _

theorem keeps_opByte : Keeps (σ := σ) Q On.readOpByte :=
  keeps_bind (keeps_readU8 hQ) fun _ => keeps_ite (keeps_pure _) (keeps_ite (keeps_pure _) (keeps_ite (keeps_pure _)
    (keeps_ite (keeps_pure _) (keeps_throw _))))

theorem keeps_size (n : Size) : Keeps (σ := σ) Q (On.readSize n) := by
  cases n
  · exact keeps_pure _
  · exact keeps_bind (keeps_readU8 hQ) fun _ => keeps_pure _
  · exact keeps_readU16 hQ

theorem keeps_readOp (dbg : Bool) (a : Addrs) (il : Bool) : Keeps (σ := σ) Q (On.readOp dbg a il) := by
  unfold On.readOp
  refine keeps_bind (keeps_opByte hQ) fun x => ?_
  obtain ⟨op, size⟩ := x
  refine keeps_ite (keeps_throw _) ?_
  refine keeps_bind (keeps_size hQ size) fun n => ?_
  rcases op with (_ | _) | _ | _
  · exact keeps_bind (keeps_readIVarint hQ dbg) fun _ => keeps_bind (keeps_lift _) fun _ => keeps_pure _
  · exact keeps_bind (keeps_readIVarint hQ dbg) fun _ => keeps_bind (keeps_lift _) fun _ => keeps_pure _
  · cases il
    · exact keeps_bind (keeps_pure _) fun _ => keeps_pure _
    · exact keeps_bind (keeps_readExact hQ _) fun _ => keeps_pure _
  · exact keeps_bind (keeps_readU8 hQ) fun _ => keeps_pure _

theorem keeps_inter (dbg : Bool) (n : Nat) : ∀ a c, Keeps (σ := σ) Q (On.readOpsInter dbg n a c) := by
  induction n with
  | zero => intro a c; exact keeps_pure _
  | succ n ih =>
    intro a c
    exact keeps_bind (keeps_readOp hQ dbg a true) fun _ => keeps_bind (keeps_lift _) fun _ =>
      keeps_bind (ih _ _) fun _ => keeps_pure _

theorem keeps_seg (dbg : Bool) (n : Nat) : ∀ a c m, Keeps (σ := σ) Q (On.readOpsSeg dbg n a c m) := by
  induction n with
  | zero => intro a c m; exact keeps_pure _
  | succ n ih =>
    intro a c m
    rw [On.readOpsSeg]
    refine keeps_bind (keeps_readOp hQ dbg a false) fun x => keeps_bind (keeps_lift _) fun _ => ?_
    obtain ⟨op, a'⟩ := x
    cases op.isAdd
    · exact keeps_bind (keeps_pure _) fun _ => keeps_bind (ih _ _ _) fun _ => keeps_pure _
    · exact keeps_bind (keeps_lift _) fun _ => keeps_bind (ih _ _ _) fun _ => keeps_pure _

theorem keeps_fill (ops : List Op) : Keeps (σ := σ) Q (On.fillAdds ops) := by
  induction ops with
  | nil => exact keeps_pure _
  | cons op ops ih =>
    rcases op with _ | _ | bs
    · exact keeps_bind ih fun _ => keeps_pure _
    · exact keeps_bind ih fun _ => keeps_pure _
    · exact keeps_bind (keeps_readExact hQ _) fun _ => keeps_bind ih fun _ => keeps_pure _

theorem keeps_ops (dbg : Bool) (h : SectionHeader) : Keeps (σ := σ) Q (On.readOpsNoComp dbg h) := by
  unfold On.readOpsNoComp
  rcases h.format
  · exact keeps_bind (keeps_inter hQ dbg _ _ _) fun _ => keeps_ite (keeps_throw _) (keeps_pure _)
  · exact keeps_bind (keeps_seg hQ dbg _ _ _ _) fun _ => keeps_ite (keeps_throw _)
      (keeps_bind (keeps_fill hQ _) fun _ => keeps_pure _)

/-- What `read_section_header` does behind its first byte. -/
theorem keeps_header_rest (dbg : Bool) (s : σ) (h : Q (On.readU8 s).2) : Q (On.readSectionHeader dbg s).2 := by
  unfold On.readSectionHeader
  rw [IOm.bind_run]
  rcases hx : On.readU8 s with ⟨b | _ | _ | _, s'⟩ <;> rw [hx] at h
  · refine keeps_bind (keeps_readUVarint hQ dbg) (fun _ => ?_) s' h
    dsimp only
    generalize (if b &&& SECTION_FORMAT_BIT = SECTION_FORMAT_BIT then Format.segregated else Format.interleaved) = fmt
    cases fmt
    · simp only [reduceCtorEq, if_false]
      exact keeps_bind (keeps_pure _) fun _ => keeps_bind (keeps_readUVarint hQ dbg) fun _ =>
        keeps_bind (keeps_pure _) fun _ => keeps_pure _
    · simp only [if_true]
      exact keeps_bind (keeps_readUVarint hQ dbg) fun _ => keeps_bind (keeps_pure _) fun _ =>
        keeps_bind (keeps_readUVarint hQ dbg) fun _ => keeps_bind (keeps_lift _) fun _ => keeps_pure _
  all_goals exact h

theorem keeps_header (dbg : Bool) : Keeps (σ := σ) Q (On.readSectionHeader dbg) := fun s h =>
  keeps_header_rest hQ dbg s (keeps_readU8 hQ s h)

theorem keeps_section (dbg : Bool) : Keeps (σ := σ) Q (On.readSection dbg) :=
  keeps_bind (keeps_header hQ dbg) fun _ => keeps_ops hQ dbg _

omit hQ [Read σ] in
theorem keeps_loop {τ : Type} [Device τ] {rd : IOm σ (List Op × SectionHeader)} (hrd : Keeps Q rd)
    (src : Option Bytes) : ∀ (f : Nat) (s : σ) (done : Bool) (pos : Nat) (c : τ), Q s →
    Q (On.applyLoop rd src f ⟨s, done⟩ pos c).2.1 := by
  intro f
  induction f with
  | zero => intro s done pos c h; exact h
  | succ f ih =>
    intro s done pos c h
    rw [On.applyLoop]
    unfold On.Iter.nextWith
    cases done
    · simp only [Bool.false_eq_true, if_false]
      have h' := hrd s h
      rcases hx : rd s with ⟨⟨ops, sh⟩ | e | _ | _, s1⟩ <;> rw [hx] at h'
      · simp only
        rcases applyOpsOn src ops pos c with ⟨_ | _ | _ | _, c'⟩
        · exact ih s1 _ _ c' h'
        all_goals exact h'
      all_goals exact h'
    · exact h

theorem keeps_readOpsComp (dbg : Bool) {on : On.CodecOn σ}
    (hz : ∀ s d n, Q s → on.zstdDecode s = .ok d → Q (d.left n))
    (hb : ∀ s d n, Q s → on.brotliDecode s = .ok d → Q (d.left n)) (h : SectionHeader) :
    Keeps Q (On.readOpsComp dbg on h) := by
  intro s hs
  unfold On.readOpsComp
  by_cases h1 : h.compressionAlgo = 1
  · rw [if_pos h1]
    have h' := keeps_loop (τ := Cursor) (keeps_section hQ dbg) none (Read.size s + 2) s false 0 .empty hs
    unfold On.applyNoSecComp
    rcases hx : On.applyLoop (On.readSection dbg) none (Read.size s + 2) ⟨s, false⟩ 0 Cursor.empty with
      ⟨_ | _ | _ | _, s', c⟩ <;> rw [hx] at h' <;> exact h'
  · rw [if_neg h1]
    by_cases h2 : h.compressionAlgo = 2
    · rw [if_pos h2]
      rcases hd : on.zstdDecode s with d | _ | _ | _
      · exact hz s d _ hs hd
      all_goals exact hs
    · rw [if_neg h2]
      by_cases h3 : h.compressionAlgo = 3
      · rw [if_pos h3]
        rcases hd : on.brotliDecode s with d | _ | _ | _
        · exact hb s d _ hs hd
        all_goals exact hs
      · rw [if_neg h3]
        exact keeps_ops hQ dbg h s hs
end

/-- Nothing is left behind the buffer. -/
def Drained (s : BufReader Raw) : Prop := s.inner = ⟨[]⟩

theorem drained_read (n : Nat) (s : BufReader Raw) (h : Drained s) : Drained (Read.read n s).2 := by
  obtain ⟨⟨es⟩, buf⟩ := s
  simp only [Drained, Raw.mk.injEq] at h
  subst h
  rcases buf with _ | ⟨b, bs⟩
  · by_cases hb : BUF_SIZE ≤ n
    · rw [bufRead_direct _ hb]; rfl
    · rw [bufRead_fill _ hb]; rfl
  · rw [bufRead_buf]; rfl

theorem drained_first (bs : Bytes) (hb : bs ≠ []) (hl : bs.length ≤ BUF_SIZE) :
    Drained (On.readU8 (BufReader.new (⟨[.chunk bs]⟩ : Raw))).2 := by
  have hr : Read.read 1 (BufReader.new (⟨[.chunk bs]⟩ : Raw)) = (.got (bs.take 1), ⟨⟨[]⟩, bs.drop 1⟩) := by
    unfold BufReader.new
    rw [bufRead_fill _ (by decide)]
    have : Read.read BUF_SIZE (⟨[.chunk bs]⟩ : Raw) = (.got bs, ⟨[]⟩) := by
      simp only [Read.read]
      rw [if_pos hl]
    rw [this]
  obtain ⟨b, bs, rfl⟩ := List.exists_cons_of_ne_nil hb
  have h1 : Drained (On.readExact 1 (BufReader.new (⟨[.chunk (b :: bs)]⟩ : Raw))).2 := by
    unfold On.readExact
    generalize Read.size (BufReader.new (⟨[.chunk (b :: bs)]⟩ : Raw)) = f
    rw [On.readExactLoop, hr]
    have h2 := keeps_readExactLoop drained_read f (0 + 1 - (b :: ([] : Bytes)).length)
      (⟨⟨[]⟩, bs⟩ : BufReader Raw) rfl
    simp only [List.take_succ_cons, List.take_zero, List.drop_succ_cons, List.drop_zero]
    rcases hx : On.readExactLoop f (0 + 1 - (b :: ([] : Bytes)).length) (⟨⟨[]⟩, bs⟩ : BufReader Raw) with
      ⟨_ | _ | _ | _, s2⟩ <;> rw [hx] at h2 <;> exact h2
  unfold On.readU8
  rw [IOm.bind_run]
  rcases hx : On.readExact 1 (BufReader.new (⟨[.chunk (b :: bs)]⟩ : Raw)) with ⟨_ | _ | _ | _, s2⟩ <;>
    rw [hx] at h1 <;> exact h1

end Smdiff
