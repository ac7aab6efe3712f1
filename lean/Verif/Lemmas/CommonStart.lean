import Verif.Lemmas.Unchanged
import Verif.Props.Size
/-!
# The search after a match at the beginning
-/
namespace Smdiff
open Spec

/-! ## The candidates -/

/-- A match in the source. -/
def IsSrc : InnerOp → Prop
  | .matchSrc .. => True
  | _ => False

/-- The candidates, newest first, when the oldest is a match of the first `n` bytes with the beginning of the source:
the others reach beyond it, and those that begin before its end are matches in the source. -/
def Behind (n : Nat) (rops : List InnerOp) : Prop :=
  ∃ rest, rops = rest ++ [.matchSrc 0 n 0] ∧ ∀ op ∈ rest, n ≤ op.oPos + op.len ∧ (op.oPos < n → IsSrc op)

theorem Behind.push {n : Nat} {rops : List InnerOp} {op : InnerOp} (h : Behind n rops)
    (h1 : n ≤ op.oPos + op.len) (h2 : op.oPos < n → IsSrc op) : Behind n (op :: rops) := by
  obtain ⟨rest, rfl, hr⟩ := h
  refine ⟨op :: rest, rfl, fun o ho => ?_⟩
  rcases List.mem_cons.1 ho with rfl | ho
  · exact ⟨h1, h2⟩
  · exact hr o ho

theorem Behind.clear {n k : Nat} (hk : 0 < k) : ∀ {rops rops' : List InnerOp}, Behind n rops →
    clearOps rops k = .ok rops' → Behind n rops' := by
  intro rops
  induction rops with
  | nil => rintro rops' ⟨rest, h, -⟩; simp at h
  | cons op ops ih =>
    rintro rops' ⟨rest, h, hr⟩ e
    rw [clearOps] at e
    split at e
    · next hge =>
      cases rest with
      | nil =>
        simp only [List.nil_append, List.cons.injEq] at h
        rw [h.1] at hge
        simp only [InnerOp.oPos] at hge
        omega
      | cons r rest =>
        simp only [List.cons_append, List.cons.injEq] at h
        exact ih ⟨rest, h.2, fun o ho => hr o (by simp [ho])⟩ e
    · cases e; exact ⟨rest, h, hr⟩

theorem trySrc_behind {dbg : Bool} {src trgt : Bytes} {maxLen n : Nat} {st : EncSt} {rops : List InnerOp} {post : Nat}
    (hle : maxLen ≤ trgt.length) (hcur : n ≤ st.cur) (hb : Behind n st.rops) (ho : SrcOk trgt st.cur st.srcM)
    (hs : SrcSync st.cur st.srcM) (e : trySrc dbg src trgt maxLen st = .ok (some (rops, post))) : Behind n rops := by
  unfold trySrc at e
  cases hsm : st.srcM with
  | none => rw [hsm] at e; simp at e
  | some m =>
    rw [hsm] at e ho hs
    simp only [SrcOk, SrcSync] at ho hs
    simp only at e
    split at e
    · next h9 =>
      have hpos : m.fwdPos = st.cur := by omega
      simp only [Outcome.bind_eq_ok] at e
      obtain ⟨_, -, r, hr, e⟩ := e
      cases r with
      | none => simp at e
      | some x =>
        obtain ⟨s, pre, po⟩ := x
        obtain ⟨h1, h2, h3, h4, h5⟩ := findBest_src_ok hr
        rw [hpos] at h2 h4 h5
        simp only at e
        have hpush : ∀ rops', Behind n rops' → Behind n (.matchSrc (s - pre) (pre + po) (st.cur - pre) :: rops') :=
          fun r hr => hr.push (by simp only [InnerOp.oPos, InnerOp.len]; omega) (fun _ => trivial)
        split at e
        · split at e
          · next hpre =>
            simp only [Outcome.bind_eq_ok] at e
            obtain ⟨rops', hc, _, -, e⟩ := e
            have := hpush _ (hb.clear (by omega) hc)
            split at e
            · simp only [Outcome.bind_eq_ok] at e
              obtain ⟨_, -, _, -, _, -, e⟩ := e
              simp only [Outcome.pure_eq, Outcome.ok.injEq, Option.some.injEq, Prod.mk.injEq] at e
              rw [← e.1]; exact this
            · simp only [Outcome.pure_eq, Outcome.ok.injEq, Option.some.injEq, Prod.mk.injEq] at e
              rw [← e.1]; exact this
          · simp only [Outcome.bind_eq_ok, Outcome.pure_eq, Outcome.ok.injEq, exists_eq_left'] at e
            obtain ⟨_, -, e⟩ := e
            have := hpush _ hb
            split at e
            · simp only [Outcome.bind_eq_ok] at e
              obtain ⟨_, -, _, -, _, -, e⟩ := e
              simp only [Outcome.ok.injEq, Option.some.injEq, Prod.mk.injEq] at e
              rw [← e.1]; exact this
            · simp only [Outcome.ok.injEq, Option.some.injEq, Prod.mk.injEq] at e
              rw [← e.1]; exact this
        · simp at e
    · simp at e

theorem tryTrgt_rops {dbg : Bool} {fuel : Nat} {trgt : Bytes} {maxLen : Nat} {st : EncSt}
    {rops : List InnerOp} {len : Nat} (e : tryTrgt dbg fuel trgt maxLen st = .ok (some (rops, len))) :
    ∃ s, rops = .matchTrgt s len st.cur :: st.rops := by
  unfold tryTrgt at e
  cases hsm : st.trgtM with
  | none => rw [hsm] at e; simp at e
  | some m =>
    rw [hsm] at e
    simp only at e
    split at e
    · simp only [Outcome.bind_eq_ok] at e
      obtain ⟨_, -, r, hr, e⟩ := e
      cases r with
      | none => simp at e
      | some x =>
        obtain ⟨s, l⟩ := x
        simp only at e
        split at e
        · simp only [Outcome.bind_eq_ok] at e
          obtain ⟨_, -, e⟩ := e
          split at e
          · simp only [Outcome.bind_eq_ok] at e
            obtain ⟨_, -, _, -, _, -, e⟩ := e
            simp only [Outcome.pure_eq, Outcome.ok.injEq, Option.some.injEq, Prod.mk.injEq] at e
            exact ⟨s, by rw [← e.1, ← e.2]⟩
          · simp only [Outcome.pure_eq, Outcome.ok.injEq, Option.some.injEq, Prod.mk.injEq] at e
            exact ⟨s, by rw [← e.1, ← e.2]⟩
        · simp at e
    · simp at e

theorem encStep_behind {dbg : Bool} {fuel : Nat} {src trgt : Bytes} {maxLen lazyLen n : Nat} {st st' : EncSt}
    (h : EncInv src trgt maxLen st) (hb : Behind n st.rops) (hn : n ≤ st.cur)
    (e : encStep dbg fuel src trgt maxLen lazyLen st = .ok st') : Behind n st'.rops ∧ n ≤ st'.cur := by
  unfold encStep at e
  split at e
  · simp only [stepStart, Outcome.bind_eq_ok] at e
    obtain ⟨_, -, ⟨_, _⟩, -, _, -, _, -, e⟩ := e
    cases e
    exact ⟨hb, hn⟩
  · next hs =>
    have hst := h.state
    unfold StateOk at hst
    rw [hs] at hst
    simp only [stepTry, Outcome.bind_eq_ok] at e
    obtain ⟨⟨rl, found⟩, -, e⟩ := e
    simp only at e
    split at e
    · cases e
      exact ⟨hb.push (by simp only [InnerOp.oPos, InnerOp.len]; omega)
        (fun h => by simp only [InnerOp.oPos] at h; omega), hn⟩
    · rw [Outcome.bind_eq_ok] at e
      obtain ⟨r, hr, e⟩ := e
      cases r with
      | some x =>
        obtain ⟨rops, post⟩ := x
        cases e
        exact ⟨trySrc_behind (st := { st with runLen := rl }) h.le hn hb h.srcOk hst.1 hr, hn⟩
      | none =>
        simp only [Outcome.bind_eq_ok] at e
        obtain ⟨r, hr, e⟩ := e
        cases r with
        | some x =>
          obtain ⟨rops, l⟩ := x
          cases e
          obtain ⟨s, h⟩ := tryTrgt_rops hr
          refine ⟨?_, hn⟩
          show Behind n rops
          rw [h]
          exact hb.push (by simp only [InnerOp.oPos, InnerOp.len]; omega)
            (fun h => by simp only [InnerOp.oPos] at h; omega)
        | none => cases e; exact ⟨hb, hn⟩
  · cases e
    unfold stepFound
    split
    · exact ⟨hb, hn⟩
    · exact ⟨hb, by show n ≤ st.cur + _; omega⟩
  · simp only [stepMove, Outcome.bind_eq_ok] at e
    obtain ⟨_, -, _, -, _, -, e⟩ := e
    cases e
    exact ⟨hb, by show n ≤ st.cur + 1; omega⟩

theorem encLoop_behind {dbg : Bool} {walkFuel : Nat} {src trgt : Bytes} {maxLen lazyLen n : Nat} :
    ∀ (fuel : Nat) {st st' : EncSt}, EncInv src trgt maxLen st → Behind n st.rops → n ≤ st.cur →
    encLoop dbg walkFuel src trgt maxLen lazyLen fuel st = .ok st' → Behind n st'.rops := by
  intro fuel
  induction fuel with
  | zero => intro st st' _ _ _ e; simp [encLoop] at e
  | succ fuel ih =>
    intro st st' h hb hn e
    rw [encLoop] at e
    split at e
    · cases e; exact hb
    · rw [Outcome.bind_eq_ok] at e
      obtain ⟨st1, e1, e⟩ := e
      obtain ⟨hb1, hn1⟩ := encStep_behind h hb hn e1
      exact ih (encStep_inv h (by omega) e1) hb1 hn1 e

/-! ## The first pass -/

theorem setLen_src {op op' : InnerOp} {n : Nat} (h : IsSrc op) (e : op.setLen n = .ok op') : IsSrc op' := by
  cases op with
  | matchSrc s l p =>
    simp only [InnerOp.setLen, Outcome.bind_eq_ok] at e
    obtain ⟨_, -, e⟩ := e
    cases e; trivial
  | matchTrgt => exact absurd h id
  | run => exact absurd h id

theorem setOPos_src {op op' : InnerOp} {n : Nat} (h : IsSrc op) (e : op.setOPos n = .ok op') : IsSrc op' := by
  cases op with
  | matchSrc s l p =>
    simp only [InnerOp.setOPos, Outcome.bind_eq_ok] at e
    obtain ⟨_, -, _, -, _, -, e⟩ := e
    cases e; trivial
  | matchTrgt => exact absurd h id
  | run => exact absurd h id

/-- With the next candidates behind `n`, the one that reaches to `n` is kept, or begins shortly before `n`. -/
theorem pass1_keep {src trgt : Bytes} {n : Nat} : ∀ (rest : List InnerOp) (one : InnerOp), P1 src trgt one rest →
    (∀ op ∈ rest, n ≤ op.oPos) → n ≤ one.oPos + one.len → IsSrc one → ∀ {r}, pass1 one rest = .ok r →
    (∃ a post, r = a :: post ∧ a.oPos = one.oPos ∧ n ≤ a.oPos + a.len ∧ IsSrc a) ∨ n ≤ one.oPos + 6 := by
  intro rest
  induction rest with
  | nil =>
    intro one h hb he hk r e
    cases e
    exact Or.inl ⟨one, [], rfl, rfl, he, hk⟩
  | cons two rest ih =>
    intro one h hb hn hk r e
    have hs := h.one_start two (by simp)
    have he := h.one_end two (by simp)
    have h2 := hb two (by simp)
    rw [pass1.eq_def] at e
    simp only [Outcome.assert, hs, decide_true, if_true, Outcome.ok_bind] at e
    by_cases c1 : one.oPos + one.len ≤ two.oPos
    · rw [if_pos c1, Outcome.bind_eq_ok] at e
      obtain ⟨r', -, e⟩ := e
      cases e
      exact Or.inl ⟨one, r', rfl, rfl, hn, hk⟩
    · rw [if_neg c1] at e
      have keep : pass1 one rest = .ok r →
          (∃ a post, r = a :: post ∧ a.oPos = one.oPos ∧ n ≤ a.oPos + a.len ∧ IsSrc a) ∨ n ≤ one.oPos + 6 :=
        fun e => ih one h.drop_two (fun op ho => hb op (by simp [ho])) hn hk e
      split at e
      · exact keep e
      · split at e
        · next hsmall =>
          split at e
          · exact Or.inr (by omega)
          · exact keep e
        · simp only [ge_iff_le, he, decide_true, if_true, Outcome.ok_bind, Outcome.bind_eq_ok] at e
          generalize hm : two.oPos + (one.oPos + one.len - two.oPos) / 2 = mid at e
          obtain ⟨one', e1, two', e2, r', e3, e⟩ := e
          cases e
          obtain ⟨o, f1, f2, f3, f4⟩ := setLen_ok (n := mid - one.oPos) h.one_true (by omega)
          rw [f1] at e1
          cases e1
          exact Or.inl ⟨_, r', rfl, f3, by omega, setLen_src hk f1⟩

/-- After the first pass at most two matches in the source cover the first `n` bytes, up to a few. -/
theorem pass1_behind {src trgt : Bytes} {n : Nat} : ∀ (rest : List InnerOp) (one : InnerOp), P1 src trgt one rest →
    (∀ op ∈ rest, n ≤ op.oPos + op.len ∧ (op.oPos < n → IsSrc op)) → one.oPos = 0 → n ≤ one.len → IsSrc one →
    ∀ {r}, pass1 one rest = .ok r →
    (∃ a post, r = a :: post ∧ a.oPos ≤ 6 ∧ n ≤ a.oPos + a.len + 6 ∧ IsSrc a) ∨
    (∃ a b post, r = a :: b :: post ∧ a.oPos = 0 ∧ b.oPos = a.len ∧ n ≤ b.oPos + b.len ∧ IsSrc a ∧ IsSrc b) ∨ n ≤ 12 := by
  intro rest
  induction rest with
  | nil =>
    intro one h hb h0 he hk r e
    cases e
    exact Or.inl ⟨one, [], rfl, by omega, by omega, hk⟩
  | cons two rest ih =>
    intro one h hb h0 hn hk r e
    have hs := h.one_start two (by simp)
    have he := h.one_end two (by simp)
    have h2 := hb two (by simp)
    rw [pass1.eq_def] at e
    simp only [Outcome.assert, hs, decide_true, if_true, Outcome.ok_bind] at e
    by_cases c1 : one.oPos + one.len ≤ two.oPos
    · rw [if_pos c1, Outcome.bind_eq_ok] at e
      obtain ⟨r', -, e⟩ := e
      cases e
      exact Or.inl ⟨one, r', rfl, by omega, by omega, hk⟩
    · rw [if_neg c1] at e
      have hrest := fun op (ho : op ∈ rest) => hb op (by simp [ho])
      split at e
      · exact ih one h.drop_two hrest h0 hn hk e
      · next hred =>
        have hfar : ∀ op ∈ rest, one.oPos + one.len ≤ op.oPos := by
          intro op ho
          cases rest with
          | nil => simp at ho
          | cons three rest =>
            have : one.oPos + one.len ≤ three.oPos := by simpa [reachesNext] using hred
            have h3 : three.oPos ≤ op.oPos := by
              rcases List.mem_cons.1 ho with rfl | ho
              · exact Nat.le_refl _
              · exact h.drop_one.drop_one.one_start _ ho
            omega
        split at e
        · next hsmall =>
          split at e
          · by_cases h6 : two.oPos < n
            · rcases pass1_keep rest two h.drop_one (fun op ho => by have := hfar op ho; omega) h2.1 (h2.2 h6) e with
                ⟨a, post, rfl, q1, q2, q3⟩ | q
              · exact Or.inl ⟨a, post, rfl, by omega, by omega, q3⟩
              · exact Or.inr (Or.inr (by omega))
            · exact Or.inr (Or.inr (by omega))
          · exact ih one h.drop_two hrest h0 hn hk e
        · simp only [ge_iff_le, he, decide_true, if_true, Outcome.ok_bind, Outcome.bind_eq_ok] at e
          generalize hm : two.oPos + (one.oPos + one.len - two.oPos) / 2 = mid at e
          obtain ⟨one', e1, two', e2, r', e3, e⟩ := e
          cases e
          obtain ⟨o, f1, f2, f3, f4⟩ := setLen_ok (n := mid - one.oPos) h.one_true (by omega)
          rw [f1] at e1
          cases e1
          obtain ⟨o2, g1, g2, g3, g4⟩ := setOPos_ok (n := mid) (h.rest_true two (by simp)) (by omega) (by omega)
          rw [g1] at e2
          cases e2
          have ks := setLen_src hk f1
          by_cases h6 : mid < n
          · have hP : P1 src trgt two' rest := by
              refine { h.drop_one with one_true := g2, one_start := ?_, one_end := ?_ }
              · intro op ho
                have := hfar op ho
                omega
              · intro op ho
                have := h.drop_one.one_end op ho
                omega
            rcases pass1_keep rest two' hP (fun op ho => by have := hfar op ho; omega) (by omega)
              (setOPos_src (h2.2 (by omega)) g1) e3 with ⟨a, post, rfl, q1, q2, q3⟩ | q
            · exact Or.inr (Or.inl ⟨_, a, post, rfl, by omega, by omega, by omega, ks, q3⟩)
            · exact Or.inl ⟨_, r', rfl, by omega, by omega, ks⟩
          · exact Or.inl ⟨_, r', rfl, by omega, by omega, ks⟩

/-! ## What the operations cost -/

/-- The cost of a list of operations. -/
def cost (ops : List Op) : Nat := (ops.map opCost).sum

theorem cost_append (a b : List Op) : cost (a ++ b) = cost a + cost b := by simp [cost]

theorem emits_cost {dict : Option Bytes} {ops : List Op} {out bs : Bytes} (h : Emits dict ops out bs) :
    cost ops ≤ 13 * bs.length := by
  have h1 := cost_le (fun op ho => (emitted_legal h.2 op ho).2)
  have h2 := exec_length h.1
  rw [List.length_append] at h2
  unfold cost
  omega

theorem copies_cost (s : CopySrc) (start len : Nat) : cost (makeCopyOps s start len) = 13 * ((len + 65534) / 65535) := by
  obtain ⟨h1, h2⟩ := makeCopyOps_shape s start len
  have : ∀ l : List Op, (∀ op ∈ l, ∃ a n, op = .copy s a n) → cost l = 13 * l.length := by
    intro l
    induction l with
    | nil => intro _; rfl
    | cons a l ih =>
      intro h
      have := ih (fun op ho => h op (by simp [ho]))
      obtain ⟨x, y, rfl⟩ := h a (by simp)
      simp only [cost, List.map_cons, List.sum_cons, opCost, List.length_cons] at *
      omega
  rw [this _ h1, h2]

theorem pass2_cost (dict : Option Bytes) {trgt : Bytes} (hs : (dict.getD []).length < 2 ^ 64)
    (ht : trgt.length < 2 ^ 64) {ops : List InnerOp} {o : Nat} (ho : o ≤ trgt.length)
    (htil : Tiled o ops) (htr : ∀ op ∈ ops, TrueCand (dict.getD []) trgt op) {r : List Op}
    (e : pass2 trgt o ops = .ok r) : cost r ≤ 13 * (trgt.length - o) := by
  obtain ⟨r', e', h⟩ := pass2_ok dict trgt hs ht ops o ho htil htr
  rw [e] at e'
  cases e'
  have := emits_cost h
  rwa [List.length_drop] at this

/-- A match in the source in front costs thirteen bytes for each 65535. -/
theorem pass2_src {trgt : Bytes} {a : InnerOp} {ops : List InnerOp} {o : Nat} (hk : IsSrc a)
    (ho : o ≤ a.oPos) (hend : a.oPos + a.len ≤ trgt.length) {r : List Op} (e : pass2 trgt o (a :: ops) = .ok r) :
    ∃ more, pass2 trgt (a.oPos + a.len) ops = .ok more ∧
      cost r ≤ 13 * (a.oPos - o) + 13 * ((a.len + 65534) / 65535) + cost more ∨ a.len = 0 := by
  by_cases h0 : a.len = 0
  · exact ⟨[], Or.inr h0⟩
  · cases a with
    | matchTrgt => exact absurd hk id
    | run => exact absurd hk id
    | matchSrc s l p =>
      rw [pass2, if_pos (by omega)] at e
      simp only [Outcome.bind_eq_ok] at e
      obtain ⟨gap, e1, _, -, b, e2, more, e3, e⟩ := e
      cases e2
      cases e
      have hout : (if (InnerOp.matchSrc s l p).oPos > o then (InnerOp.matchSrc s l p).oPos else o)
          = (InnerOp.matchSrc s l p).oPos := by split <;> omega
      rw [hout] at e3
      refine ⟨more, Or.inl ⟨e3, ?_⟩⟩
      rw [cost_append, cost_append, copies_cost]
      have hg : cost gap ≤ 13 * (p - o) := by
        simp only [InnerOp.oPos, InnerOp.len] at ho hend e1
        unfold gapOps at e1
        split at e1
        · rw [slice_ok (by omega) (by omega)] at e1
          cases e1
          have := emits_cost (emits_makeAddOps none ((trgt.drop o).take (p - o)) [])
          simp only [List.length_take, List.length_drop] at this
          omega
        · cases e1
          simp [cost]
      simp only [InnerOp.oPos, InnerOp.len] at *
      omega

/-- A target of which the first `n` bytes are matched by the first candidate costs thirteen bytes for each further
byte, thirteen for each 65535 bytes, and a little. -/
theorem translate_behind (dict : Option Bytes) {trgt : Bytes} (hs : (dict.getD []).length < 2 ^ 64)
    (ht : trgt.length < 2 ^ 64) {rops : List InnerOp} {n : Nat} (hc : Candidates (dict.getD []) trgt rops.reverse)
    (hb : Behind n rops) (hn : n ≤ trgt.length) {ops : List Op} (e : translateInnerOps trgt rops.reverse = .ok ops) :
    cost ops ≤ 13 * (trgt.length - n) + 13 * (trgt.length / 65535) + 169 := by
  obtain ⟨rest, rfl, hr⟩ := hb
  rw [List.reverse_append, List.reverse_singleton, List.singleton_append] at e hc
  obtain ⟨h1, h2, h3⟩ := hc
  simp only [candStart_eq, candEnd_eq] at h2 h3
  have hP : P1 (dict.getD []) trgt (.matchSrc 0 n 0) rest.reverse :=
    { one_true := h1 _ (by simp)
      rest_true := fun op ho => h1 _ (by simp [ho])
      one_start := (List.pairwise_cons.1 h2).1
      one_end := (List.pairwise_cons.1 h3).1
      starts := (List.pairwise_cons.1 h2).2
      ends := (List.pairwise_cons.1 h3).2 }
  obtain ⟨r, e1, til, tr, -⟩ := pass1_ok _ _ hP
  unfold translateInnerOps resolve at e
  simp only [e1, Outcome.ok_bind] at e
  simp only [InnerOp.oPos] at til
  rcases pass1_behind _ _ hP (fun op ho => hr op (by simpa using ho)) rfl (Nat.le_refl _) trivial e1 with
    ⟨a, post, rfl, q1, q2, q3⟩ | ⟨a, b, post, rfl, q1, q2, q3, q4, q5⟩ | q
  · have ha := trueCand_end (tr a (by simp))
    obtain ⟨more, ⟨f1, f2⟩ | f⟩ := pass2_src q3 (Nat.zero_le _) ha e
    · have := pass2_cost dict hs ht ha til.2 (fun op ho => tr op (by simp [ho])) f1
      omega
    · have := pass2_cost dict hs ht (Nat.zero_le _) til tr e
      omega
  · have ha := trueCand_end (tr a (by simp))
    have hb := trueCand_end (tr b (by simp))
    have fin : ∀ o more, o ≤ b.oPos → pass2 trgt o (b :: post) = .ok more →
        cost more ≤ 13 * (b.oPos - o) + 13 * ((b.len + 65534) / 65535) + 13 * (trgt.length - n) := by
      intro o more ho e
      have ht' : Tiled o (b :: post) := ⟨ho, til.2.2⟩
      obtain ⟨more, ⟨f1, f2⟩ | f⟩ := pass2_src q5 ho hb e
      · have := pass2_cost dict hs ht hb til.2.2 (fun op ho => tr op (by simp [ho])) f1
        omega
      · have := pass2_cost dict hs ht (by omega) ht' (fun op ho => tr op (by simp at ho ⊢; tauto)) e
        omega
    obtain ⟨more, ⟨f1, f2⟩ | f⟩ := pass2_src q4 (Nat.zero_le _) ha e
    · have := fin _ _ (by omega) f1
      omega
    · rw [pass2, if_neg (by omega)] at e
      have := fin 0 _ (Nat.zero_le _) e
      omega
  · have := pass2_cost dict hs ht (Nat.zero_le _) til tr e
    omega

/-! ## The two ways to the first match -/

theorem naive_append {tests : NaiveTests} {src x : Bytes} (hx : x ≠ [])
    (h : tests = .append ∨ tests = .appendPrepend) :
    naiveResult (some tests) src (src ++ x) = ([.matchSrc 0 src.length 0], src.length, (src ++ x).length) := by
  have h1 : (src ++ x).length > src.length := by
    have := List.length_pos_iff.2 hx
    simp only [List.length_append]; omega
  have h2 : src.isPrefixOf (src ++ x) = true := by
    rw [List.isPrefixOf_iff_prefix]; exact List.prefix_append _ _
  unfold naiveResult
  rcases h with rfl | rfl <;> simp only [if_pos h1, h2, if_true]

theorem encodeInner_starts {dbg : Bool} {w : Nat} {cfg : InnerConfig} {src trgt : Bytes}
    (hm : cfg.matchSrc ≠ none ∨ cfg.matchTrgt ≠ none) (hs : src ≠ [])
    (hr : naiveResult cfg.naiveTests src trgt = ([.matchSrc 0 src.length 0], src.length, trgt.length))
    {ops : List InnerOp} (e : encodeInner dbg w cfg src trgt = .ok ops) :
    ∃ rops, ops = rops.reverse ∧ Behind src.length rops := by
  have ht : trgt ≠ [] := by
    rintro rfl
    have := naive_case cfg.naiveTests src []
    rw [hr] at this
    cases this with
    | start h => simp at h
  unfold encodeInner at e
  rw [if_neg (by
    simp only [List.length_eq_zero_iff, hs, ht, false_and, or_false, Option.isNone_iff_eq_none]
    tauto)] at e
  simp only [hr, Nat.lt_irrefl, if_false] at e
  simp only [Outcome.bind_eq_ok] at e
  obtain ⟨st0, h0, st, h1, _, -, e⟩ := e
  cases e
  obtain ⟨i0, -⟩ := encInit_inv h0
  simp only [hr] at i0
  simp only [encInit, hr, Outcome.bind_eq_ok] at h0
  obtain ⟨tm, -, sm, -, h0⟩ := h0
  cases h0
  exact ⟨_, rfl, encLoop_behind _ i0 ⟨[], rfl, by simp⟩ (Nat.le_refl _) h1⟩

theorem encodeInner_append {dbg : Bool} {w : Nat} {cfg : InnerConfig} {tests : NaiveTests} {src x : Bytes}
    (hm : cfg.matchSrc ≠ none ∨ cfg.matchTrgt ≠ none) (hs : src ≠ []) (hx : x ≠ [])
    (hn : cfg.naiveTests = some tests) (ht : tests = .append ∨ tests = .appendPrepend) {ops : List InnerOp}
    (e : encodeInner dbg w cfg src (src ++ x) = .ok ops) :
    ∃ rops, ops = rops.reverse ∧ Behind src.length rops :=
  encodeInner_starts hm hs (by rw [hn]; exact naive_append hx ht) e

theorem countWhile_ge (p : Nat → Bool) : ∀ (k n lo : Nat), k ≤ n → (∀ i < k, p (lo + i) = true) →
    k ≤ countWhile p lo n := by
  intro k
  induction k with
  | zero => intros; omega
  | succ k ih =>
    intro n lo hk h
    obtain ⟨n, rfl⟩ : ∃ m, n = m + 1 := ⟨n - 1, by omega⟩
    rw [countWhile, if_pos (by simpa using h 0 (by omega))]
    have := ih n (lo + 1) (by omega) (fun i hi => by
      have := h (i + 1) (by omega)
      rwa [show lo + (i + 1) = lo + 1 + i by omega] at this)
    omega

theorem extend_common {p a b : Bytes} (h : 9 ≤ p.length) :
    ∃ n, extendSrcMatch (p ++ a) 0 (p ++ b) 0 = .ok (some (0, n)) ∧ p.length ≤ n + 9 ∧ n + 9 ≤ (p ++ b).length ∧
      n + 9 ≤ (p ++ a).length ∧ ∀ i < n + 9, (p ++ a)[i]? = (p ++ b)[i]? := by
  have hw : ∀ y, window (p ++ y) 0 9 = window p 0 9 := by
    intro y
    unfold window
    rw [List.drop_zero, List.drop_zero, List.take_append_of_le_length h]
  have la : (p ++ a).length = p.length + a.length := by simp
  have lb : (p ++ b).length = p.length + b.length := by simp
  refine ⟨countWhile (fun i => byteEq (p ++ a) (9 + i) (p ++ b) (9 + i)) 0
      (min ((p ++ a).length - 9) ((p ++ b).length - 9)), ?_, ?_, ?_, ?_, ?_⟩
  · unfold extendSrcMatch
    rw [slice_window (show 0 + 9 ≤ (p ++ a).length by omega), slice_window (show 0 + 9 ≤ (p ++ b).length by omega)]
    simp only [Outcome.ok_bind, hw, ne_eq, not_true_eq_false, if_false, Outcome.pure_eq, Nat.zero_add]
    rw [show min 0 0 - 1 = 0 from rfl, countWhile]
  · have := countWhile_ge (fun i => byteEq (p ++ a) (9 + i) (p ++ b) (9 + i)) (p.length - 9)
      (min ((p ++ a).length - 9) ((p ++ b).length - 9)) 0 (by omega) (fun i hi => by
        unfold byteEq
        rw [List.getElem?_append_left (by omega), List.getElem?_append_left (by omega),
          List.getElem?_eq_getElem (by omega)]
        simp)
    omega
  · have := countWhile_le (fun i => byteEq (p ++ a) (9 + i) (p ++ b) (9 + i))
      (min ((p ++ a).length - 9) ((p ++ b).length - 9)) 0
    omega
  · have := countWhile_le (fun i => byteEq (p ++ a) (9 + i) (p ++ b) (9 + i))
      (min ((p ++ a).length - 9) ((p ++ b).length - 9)) 0
    omega
  · intro i hi
    by_cases h9 : i < 9
    · rw [List.getElem?_append_left (by omega), List.getElem?_append_left (by omega)]
    · have := byteEq_true (countWhile_all (fun i => byteEq (p ++ a) (9 + i) (p ++ b) (9 + i))
        (min ((p ++ a).length - 9) ((p ++ b).length - 9)) 0 (i - 9) (by omega))
      rwa [show 9 + (0 + (i - 9)) = i by omega] at this

theorem stepFound_far {lazyLen maxLen n : Nat} {st : EncSt} (h : lazyLen ≤ n) :
    stepFound lazyLen maxLen n st = { st with cur := st.cur + n, state := .startNewMatch } := by
  unfold stepFound
  rw [if_neg (by omega)]

/-- With a common beginning, not shorter than the length from which on the search does not look for a better match, the
first candidate is a match of it. -/
theorem encodeInner_common (dbg : Bool) (w : Nat) {cfg : InnerConfig} {c : SrcMatcherConfig} {p a b : Bytes}
    (hc : cfg.matchSrc = some c) (hnv : naiveResult cfg.naiveTests (p ++ a) (p ++ b) = ([], 0, (p ++ b).length))
    (hl : 18 + 2 * max c.lStep 1 ≤ (p ++ a).length) (hp : 9 < p.length) (hm : StartsMixed p)
    (hlazy : cfg.lazyEscapeLen.getD 90 ≤ p.length) {ops : List InnerOp}
    (e : encodeInner dbg w cfg (p ++ a) (p ++ b) = .ok ops) :
    ∃ rops n, ops = rops.reverse ∧ Behind n rops ∧ p.length ≤ n ∧ n ≤ (p ++ b).length := by
  have la : (p ++ a).length = p.length + a.length := by simp
  have lb : (p ++ b).length = p.length + b.length := by simp
  have hm' : StartsMixed (p ++ b) := by
    obtain ⟨i, j, hi, hj, hi', hj', h⟩ := hm
    refine ⟨i, j, hi, hj, by omega, by omega, ?_⟩
    rwa [List.getElem?_append_left hi', List.getElem?_append_left hj']
  obtain ⟨rl, rb, r1, r2⟩ := initialRun_mixed (by omega) hm'
  obtain ⟨n, x1, x2, x3, x4, x5⟩ := extend_common (a := a) (b := b) (show 9 ≤ p.length by omega)
  unfold encodeInner at e
  rw [if_neg (by
    simp only [hc, Option.isNone_some, Bool.false_eq_true, false_and, false_or, List.length_eq_zero_iff,
      List.append_eq_nil_iff, not_or]
    constructor
    · rintro ⟨⟨h, -⟩, -⟩; rw [h] at hp; simp at hp
    · rintro ⟨h, -⟩; rw [h] at hp; simp at hp)] at e
  simp only [hnv, Nat.lt_irrefl, if_false] at e
  simp only [Outcome.bind_eq_ok] at e
  obtain ⟨st0, h0, st, h1, _, -, e⟩ := e
  cases e
  obtain ⟨i0, -⟩ := encInit_inv h0
  simp only [hnv] at i0
  simp only [encInit, hnv, Outcome.bind_eq_ok, hc, onSome_some] at h0
  obtain ⟨tm, t1, sm', ⟨sm, s1, s2⟩, h0⟩ := h0
  cases s2
  cases h0
  -- the source matcher
  have ht9 : 9 < (p ++ b).length := by omega
  obtain ⟨-, g, -⟩ := buildSrc_good (by omega) s1
  obtain ⟨g3, g4⟩ := g (by omega)
  have s1' := s1
  simp only [SrcMatcherConfig.build, Outcome.bind_eq_ok] at s1'
  obtain ⟨ww, hw, r, -, s1'⟩ := s1'
  obtain ⟨g1, g2⟩ := addStart_zero (initial_inv (trgt := p ++ b) hw) rfl hl s1'
  have g5 : sm.maxFwdHashPos = (p ++ b).length - 9 := (addStart_same s1').maxFwdHashPos
  have hwin : ∀ y, window (p ++ y) 0 9 = window p 0 9 := by
    intro y
    unfold window
    rw [List.drop_zero, List.drop_zero, List.take_append_of_le_length (by omega)]
  have hf : sm.findBest (p ++ a) (p ++ b) = .ok (some (0, 0, n + 9)) := by
    unfold SrcMatcher.findBest
    rw [g3, hwin, ← hwin a, g1]
    simp only [Outcome.ok_bind, Nat.zero_mul, g4, x1, Outcome.pure_eq]
  -- the first step
  obtain ⟨f, hfuel⟩ : ∃ f, 4 * (p ++ b).length + 8 = f + 3 := ⟨4 * (p ++ b).length + 5, by omega⟩
  rw [hfuel, encLoop, if_neg (by simp only; omega), Outcome.bind_eq_ok] at h1
  obtain ⟨st1, e1, h1⟩ := h1
  have i1 := encStep_inv i0 (by simp only; omega) e1
  have q1 : ∃ tm2, st1 = zeroSt sm tm2 [] rl rb .tryMatch := by
    simp only [encStep, stepStart, sliceFrom, Nat.zero_le, if_true, List.drop_zero, Outcome.ok_bind, r1, onSome_some,
      startSrc_zero g2 g4 g5 ht9, Outcome.pure_eq, Outcome.bind_eq_ok, List.reverse_nil, lastEnd, gt_iff_lt,
      Nat.lt_irrefl, if_false] at e1
    obtain ⟨tm2, -, e1⟩ := e1
    cases e1
    exact ⟨tm2, rfl⟩
  obtain ⟨tm2, rfl⟩ := q1
  -- the second step
  rw [encLoop, if_neg (by simp only [zeroSt]; omega), Outcome.bind_eq_ok] at h1
  obtain ⟨st2, e2, h1⟩ := h1
  have i2 := encStep_inv i1 (by simp only [zeroSt]; omega) e2
  have q2 : st2 = zeroSt sm tm2 [.matchSrc 0 (n + 9) 0] rl rb (.foundMatch (n + 9)) := by
    have hr : tryRun dbg (p ++ b) (zeroSt sm tm2 [] rl rb .tryMatch) = .ok (rl, false) := by
      simp [tryRun, sliceFrom, r2, zeroSt]
    have hs : trySrc dbg (p ++ a) (p ++ b) (p ++ b).length (zeroSt sm tm2 [] rl rb .tryMatch)
        = .ok (some ([.matchSrc 0 (n + 9) 0], n + 9)) := by
      unfold trySrc zeroSt
      have hda : ∀ b, b = true → Outcome.debugAssert dbg b = .ok () := by
        rintro _ rfl; cases dbg <;> rfl
      have a1 : slice (p ++ a) 0 (0 + (n + 9)) = .ok ((p ++ a).take (n + 9)) :=
        slice_eq_ok.2 ⟨by omega, by omega, by simp⟩
      have a2 : slice (p ++ b) 0 (0 + (n + 9)) = .ok ((p ++ b).take (n + 9)) :=
        slice_eq_ok.2 ⟨by omega, by omega, by simp⟩
      have a3 : (p ++ a).take (n + 9) = (p ++ b).take (n + 9) := by
        apply List.ext_getElem?
        intro i
        by_cases hi : i < n + 9
        · rw [List.getElem?_take_of_lt hi, List.getElem?_take_of_lt hi, x5 i hi]
        · rw [List.getElem?_take_eq_none (by omega), List.getElem?_take_eq_none (by omega)]
      simp only [Nat.zero_add] at a1 a2
      simp only [Nat.zero_add, if_pos (show 9 ≤ (p ++ b).length by omega), hda _ (decide_eq_true g4), Outcome.ok_bind, hf,
        ge_iff_le, if_pos (show 4 ≤ n + 9 by omega), gt_iff_lt, Nat.lt_irrefl, if_false, Outcome.pure_eq,
        Nat.sub_self, hda _ (decide_eq_true (show n + 9 ≤ (p ++ a).length by omega)), a1, a2, a3, decide_true,
        Outcome.assert, if_true]
      cases dbg <;> rfl
    simp only [encStep, stepTry, zeroSt] at hr hs e2 ⊢
    simp only [hr, Outcome.ok_bind, Bool.false_eq_true, if_false, hs, Outcome.pure_eq] at e2
    cases e2
    rfl
  subst q2
  -- the third step
  rw [encLoop, if_neg (by simp only [zeroSt]; omega), Outcome.bind_eq_ok] at h1
  obtain ⟨st3, e3, h1⟩ := h1
  have i3 := encStep_inv i2 (by simp only [zeroSt]; omega) e3
  simp only [encStep, zeroSt] at e3
  rw [stepFound_far (by omega)] at e3
  cases e3
  exact ⟨_, n + 9, rfl, encLoop_behind _ i3 ⟨[], rfl, by simp⟩ (by simp only; omega) h1, x2, x3⟩

end Smdiff
