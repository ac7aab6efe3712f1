import Verif.SpecTranslate
import Verif.Props.Vcdiff
import Verif.Props.Carry
import Verif.Props.Transcoder
/-!
# C104: what converting a VCDIFF gives, and what it costs
-/
namespace Smdiff
open Spec

namespace Vcdiff

theorem ops_made {secs : List (List Op × SectionHeader)} {ss : List (Header × List Op)}
    (h : ss.map (·.2) = secs.map (·.1)) : ss.flatMap (·.2) = secs.flatMap (·.1) := by
  rw [List.flatMap_def, List.flatMap_def, h]

/-- What is written when converting: the sections, and the operations in them. -/
theorem convert_made (dbg dbgR : Bool) (cdc : Codec) {src : Option Bytes} (hsrc : ∀ b ∈ src, b.length < 2 ^ 63)
    {stream : List VMsg} {out : Bytes} (hm : vcdMeaning src stream = some out) (hout : out.length < 2 ^ 63)
    (hl : ¬ HasLongSequence stream) (w : Bytes) :
    ∃ q, ∃ secs : List (List Op × SectionHeader), convert dbg stream w = (.ok (), w ++ q) ∧
      writeEach (writeSection dbg) .interleaved secs w = (.ok (), w ++ q) ∧
      applyPatch dbgR cdc src q .empty = (.ok (), ⟨out, out.length⟩) ∧ Holds dbgR cdc q (vcdTranslated stream) ∧
      (∀ s ∈ secs, SecOk s) ∧ secs ≠ [] ∧ secs.flatMap (·.1) = vcdTranslated stream ∧
      (∀ s ∈ secs.dropLast, 16711681 ≤ totalLen s.1) ∧ meaning src (vcdTranslated stream) = some out ∧
      ∃ ss, SectionsAt (VRead dbgR) cdc ss q [] ∧ Terminated ss ∧ ss.map (·.2) = secs.map (·.1) := by
  obtain ⟨secs, w', h1, h2, h3, h4, h5, h6, h7, -⟩ := (convert_sim (dbg := dbg) hsrc hm hout w).2 hl
  have e : writeEach (sectionWriter dbg cdc none) .interleaved secs w = (.ok (), w') := by
    rw [← h3, ← writeEach_plain]
    rfl
  obtain ⟨bs, secs', g1, g2, g3, g4, g5, g6⟩ := writeEach_read dbg dbgR none .interleaved h2
    (fun h => by rcases h with h | h <;> cases h) h4 e
  obtain ⟨q, k1, k2, ss, k3, k4, k5, k6⟩ := writeEach_apply dbg dbgR none .interleaved
    h2 (fun h => by rcases h with h | h <;> cases h) h4 e h5
  subst k1
  obtain rfl := List.append_cancel_left g1
  refine ⟨q, secs, h1, ?_, k2, ?_, fun s hs => (h4 s hs).1, ?_, h6, h7, by rw [← h6]; exact h5, ss, k3, k4, k5⟩
  · rw [← h3, ← writeEach_plain]
  · have hl : secs'.length = secs.length := by have := congrArg List.length g3; simpa using this
    have hr := g5 []
    simp only [List.append_nil] at hr
    have := extractLoop_of_readSeq g4 hr (f := q.length + 2) (pos := 0) (st := {}) (by omega)
    rw [List.flatMap_def, g3, ← List.flatMap_def, h6] at this
    exact ⟨_, _, this, (tagged_snd _ _).symm⟩
  · cases h2 <;> simp

theorem cuts_length (m n : Nat) : (cuts m n).length = (n + m - 1) / m := by simp [cuts]

theorem cuts_mem {m n o l : Nat} (hm : 1 ≤ m) (h : (o, l) ∈ cuts m n) : 1 ≤ l ∧ l ≤ m ∧ o + l ≤ n := by
  simp only [cuts, List.mem_map, List.mem_range, Prod.mk.injEq] at h
  obtain ⟨i, h1, rfl, rfl⟩ := h
  have : i * m < n := by
    have h2 : (i + 1) * m ≤ n + m - 1 := (Nat.le_div_iff_mul_le hm).1 h1
    rw [Nat.add_mul] at h2
    omega
  omega

/-- The lengths of the pieces add up. -/
theorem cuts_total {m : Nat} (hm : 1 ≤ m) : ∀ (k n : Nat), n ≤ k → ((cuts m n).map (·.2)).sum = n := by
  intro k
  induction k with
  | zero => intro n h; rw [Nat.le_zero.1 h, cuts_zero]; rfl
  | succ k ih =>
    intro n h
    rcases Nat.eq_zero_or_pos n with rfl | hn
    · rw [cuts_zero]; rfl
    · rw [cuts_pos hm hn, List.map_cons, List.sum_cons, List.map_map]
      have := ih (n - min m n) (by omega)
      simp only [Function.comp_def] at this ⊢
      rw [this]
      omega

theorem bytesOf_none {k : Op → Bool} {ops : List Op} (h : ∀ op ∈ ops, k op = false) : bytesOf k ops = 0 := by
  have : ops.filter k = [] := List.filter_eq_nil_iff.2 (fun op ho => by rw [h op ho]; decide)
  rw [bytesOf, this]; rfl

theorem totalLen_map {α : Type} (f : α → Op) (g : α → Nat) : ∀ (l : List α), (∀ x ∈ l, opLen (f x) = g x) →
    totalLen (l.map f) = (l.map g).sum
  | [], _ => rfl
  | x :: l, h => by
    rw [List.map_cons, totalLen_cons, List.map_cons, List.sum_cons, h x (by simp),
      totalLen_map f g l (fun y hy => h y (by simp [hy]))]

theorem add_piece {data : Bytes} {o n : Nat} (h : o + n ≤ data.length) : ((data.drop o).take n).length = n := by
  simp; omega

theorem bytesOf_all {k : Op → Bool} {ops : List Op} (h : ∀ op ∈ ops, k op = true) : bytesOf k ops = totalLen ops := by
  rw [bytesOf, List.filter_eq_self.2 h]

/-- One instruction of a well-formed window. -/
theorem instOps_facts {sb : Bytes} {start pos : Nat} {out out' : Bytes} {i : VInst} {seg : Option (UInt64 × CopySrc)}
    (hi : vcdInst sb start out i = some out') (hs : sb ≠ [] → seg ≠ none) (hl : ¬ LongSequence i) :
    (vcdInstOps seg pos i).length = vcdInstCount i ∧ bytesOf isAdd (vcdInstOps seg pos i) = vcdInstAdds i ∧
      ∀ op ∈ vcdInstOps seg pos i, 1 ≤ opLen op := by
  have cp : ∀ (cs : CopySrc) (f : Nat → UInt64) (m n : Nat), 1 ≤ m → (m ≤ 65535 ∨ n ≤ 65535) →
      bytesOf isAdd ((cuts m n).map fun x => Op.copy cs (f x.1) (UInt16.ofNat x.2)) = 0 ∧
      ∀ op ∈ (cuts m n).map fun x => Op.copy cs (f x.1) (UInt16.ofNat x.2), 1 ≤ opLen op := by
    intro cs f m n hm hmn
    constructor
    · apply bytesOf_none
      intro op ho
      obtain ⟨x, -, rfl⟩ := List.mem_map.1 ho
      rfl
    · intro op ho
      obtain ⟨⟨o, l⟩, hx, rfl⟩ := List.mem_map.1 ho
      have := cuts_mem hm hx
      simp only [opLen, UInt16.toNat_ofNat']
      omega
  rcases i with ⟨len, data | _ | _ | _⟩ | ⟨len, byte⟩ | ⟨len, uPos, _ | st | lenO⟩
  · simp only [vcdInst] at hi
    have hd : len.toNat ≤ data.length := by by_contra h; rw [if_neg h] at hi; cases hi
    refine ⟨by simp [vcdInstOps, vcdInstCount, cuts_length], ?_, ?_⟩
    · rw [bytesOf_all]
      · simp only [vcdInstOps, vcdInstAdds]
        rw [totalLen_map _ (·.2), cuts_total (by omega) _ _ (Nat.le_refl _)]
        rintro ⟨o, n⟩ hx
        have := cuts_mem (by omega) hx
        exact add_piece (by omega)
      · intro op ho
        obtain ⟨x, -, rfl⟩ := List.mem_map.1 ho
        rfl
    · intro op ho
      obtain ⟨⟨o, n⟩, hx, rfl⟩ := List.mem_map.1 ho
      have := cuts_mem (by omega) hx
      show 1 ≤ ((data.drop o).take n).length
      rw [add_piece (by omega)]
      exact this.1
  · cases hi
  · cases hi
  · cases hi
  · refine ⟨by simp [vcdInstOps, vcdInstCount, cuts_length], ?_, ?_⟩
    · apply bytesOf_none
      intro op ho
      obtain ⟨x, -, rfl⟩ := List.mem_map.1 ho
      rfl
    · intro op ho
      obtain ⟨⟨o, n⟩, hx, rfl⟩ := List.mem_map.1 ho
      have := cuts_mem (by omega) hx
      simp only [opLen, UInt8.toNat_ofNat']
      omega
  · simp only [vcdInst] at hi
    have hk : CopyKindOk sb.length (sb.length + (out.length - start)) len.toNat uPos.toNat .copyS := by
      by_contra h; rw [if_neg h] at hi; cases hi
    rcases seg with _ | ⟨p, cs⟩
    · exact absurd rfl (hs (by intro h; rw [h] at hk; simp [CopyKindOk] at hk))
    · refine ⟨by simp [vcdInstOps, vcdInstCount, cuts_length], ?_⟩
      exact cp cs (fun o => UInt64.ofNat (p.toNat + uPos.toNat + o)) 65535 len.toNat (by omega) (.inl (by omega))
  · refine ⟨by simp [vcdInstOps, vcdInstCount, cuts_length], ?_⟩
    exact cp .output (fun o => UInt64.ofNat (pos - (st.toNat - uPos.toNat) + o)) 65535 len.toNat (by omega) (.inl (by omega))
  · simp only [vcdInst] at hi
    have hk : CopyKindOk sb.length (sb.length + (out.length - start)) len.toNat uPos.toNat (.copyQ lenO) := by
      by_contra h; rw [if_neg h] at hi; cases hi
    simp only [CopyKindOk] at hk
    simp only [LongSequence] at hl
    refine ⟨by simp [vcdInstOps, vcdInstCount, cuts_length], ?_⟩
    exact cp .output (fun _ => UInt64.ofNat (pos - (len.toNat - lenO.toNat))) (len.toNat - lenO.toNat) lenO.toNat (by omega) (by omega)

/-- All messages of a well-formed stream. -/
theorem vcdOps_facts {src : Option Bytes} : ∀ (ms : List VMsg) {win : Option (Bytes × Nat)} {out out' : Bytes} {pos : Nat}
    {seg : Option (UInt64 × CopySrc)}, vcdRun src win out ms = some out' →
    (∀ sb start, win = some (sb, start) → sb ≠ [] → seg ≠ none) → ¬ HasLongSequence ms →
    (vcdOps seg pos ms).length = ((vcdInsts ms).map vcdInstCount).sum ∧
      bytesOf isAdd (vcdOps seg pos ms) = ((vcdInsts ms).map vcdInstAdds).sum ∧
      ∀ op ∈ vcdOps seg pos ms, 1 ≤ opLen op := by
  intro ms
  induction ms with
  | nil => intro win out out' pos seg _ _ _; exact ⟨rfl, rfl, by intro op ho; cases ho⟩
  | cons m ms ih =>
    intro win out out' pos seg hr hs hl
    rw [hasLong_cons, not_or] at hl
    rcases win with _ | ⟨sb, start⟩
    · rcases m with ⟨ssp, sss, ind⟩ | _ | _ | _
      · simp only [vcdRun, Option.bind_eq_some_iff] at hr
        obtain ⟨sb, h1, hr⟩ := hr
        have hp : ∀ sb' st', some (sb, out.length) = some (sb', st') → sb' ≠ [] →
            (ssp.map fun p => (p, if ind = .target then CopySrc.output else .dict)) ≠ none := by
          rintro sb' st' h hne
          cases h
          rcases ssp with _ | p
          · rcases sss with _ | n <;> rcases ind <;> simp only [vcdSegment] at h1 <;> cases h1
            exact absurd rfl hne
          · simp
        have := ih (pos := pos) (seg := ssp.map fun p => (p, if ind = .target then CopySrc.output else .dict)) hr hp hl.2
        simpa [vcdOps, vcdInsts, msgInsts] using this
      all_goals simp [vcdRun] at hr
    · rcases m with _ | ⟨first, _ | second⟩ | _ | _
      · cases hr
      · simp only [vcdRun, Option.bind_eq_some_iff] at hr
        obtain ⟨o1, h1, hr⟩ := hr
        have a := instOps_facts (pos := pos) h1 (hs _ _ rfl) (fun h => hl.1 ⟨_, by simp [msgInsts], h⟩)
        have b := ih (pos := pos + vcdInstLen first) (seg := seg) hr hs hl.2
        have e : vcdInsts (.inst first none :: ms) = first :: vcdInsts ms := rfl
        rw [e, List.map_cons, List.sum_cons, List.map_cons, List.sum_cons, vcdOps, List.length_append, bytesOf_append,
          a.1, a.2.1, b.1, b.2.1]
        refine ⟨rfl, rfl, fun op ho => ?_⟩
        rcases List.mem_append.1 ho with ho | ho
        · exact a.2.2 op ho
        · exact b.2.2 op ho
      · simp only [vcdRun, Option.bind_eq_some_iff] at hr
        obtain ⟨o1, h1, o2, h2, hr⟩ := hr
        have a := instOps_facts (pos := pos) h1 (hs _ _ rfl) (fun h => hl.1 ⟨_, by simp [msgInsts], h⟩)
        have c := instOps_facts (pos := pos + vcdInstLen first) h2 (hs _ _ rfl) (fun h => hl.1 ⟨_, by simp [msgInsts], h⟩)
        have b := ih (pos := pos + vcdInstLen first + vcdInstLen second) (seg := seg) hr hs hl.2
        have e : vcdInsts (.inst first (some second) :: ms) = first :: second :: vcdInsts ms := rfl
        simp only [e, List.map_cons, List.sum_cons, vcdOps, List.length_append, bytesOf_append,
          a.1, a.2.1, b.1, b.2.1, c.1, c.2.1, true_and]
        intro op ho
        rcases List.mem_append.1 ho with ho | ho
        · exact a.2.2 op ho
        · rcases List.mem_append.1 ho with ho | ho
          · exact c.2.2 op ho
          · exact b.2.2 op ho
      · have := ih (win := none) (pos := pos) (seg := none) hr (by intro _ _ h; cases h) hl.2
        simpa [vcdOps, vcdInsts, msgInsts] using this
      · cases hr

theorem few_full : ∀ (secs : List (List Op × SectionHeader)), (∀ s ∈ secs.dropLast, 16711681 ≤ totalLen s.1) →
    16711681 * (secs.length - 1) ≤ totalLen (secs.flatMap (·.1))
  | [], _ => by simp
  | [s], _ => by simp
  | s :: t :: rest, h => by
    have h1 := h s (by simp)
    have h2 := few_full (t :: rest) (fun u hu => h u (by rw [List.dropLast_cons_of_ne_nil (by simp)]; exact List.mem_cons_of_mem _ hu))
    rw [List.flatMap_cons, totalLen_append]
    simp only [List.length_cons] at h2 ⊢
    omega

theorem sum_bytes (f : Nat → Nat) (g : List Op → Nat) (hg : ∀ xs ys, g (xs ++ ys) = g xs + g ys) (h0 : g [] = 0)
    (h : ∀ ops, opsBytes f .zero ops ≤ g ops) : ∀ (secs : List (List Op × SectionHeader)),
    (secs.map fun s => opsBytes f .zero s.1).sum ≤ g (secs.flatMap (·.1))
  | [] => by simp [h0]
  | s :: secs => by
    have := sum_bytes f g hg h0 h secs
    have := h s.1
    rw [List.map_cons, List.sum_cons, List.flatMap_cons, hg]
    omega

theorem opBytes_least (a : Addrs) (op : Op) (h : 1 ≤ opLen op) : 2 ≤ opBytes sizeBytes a op := by
  have hs : ∀ n, 1 ≤ sizeBytes n := by intro n; unfold sizeBytes; split <;> [skip; split] <;> omega
  rcases op with ⟨b, n⟩ | ⟨_ | _, x, n⟩ | d
  · simp [opBytes]
  · have := hs n.toNat
    have := deltaBytes_pos a.d x
    simp only [opBytes]
    omega
  · have := hs n.toNat
    have := deltaBytes_pos a.o x
    simp only [opBytes]
    omega
  · have := hs d.length
    simp only [opLen] at h
    simp only [opBytes]
    omega

theorem opsBytes_least : ∀ (ops : List Op) (a : Addrs), (∀ op ∈ ops, 1 ≤ opLen op) → 2 * ops.length ≤ opsBytes sizeBytes a ops
  | [], _, _ => by simp [opsBytes]
  | op :: ops, a, h => by
    have h1 := opBytes_least a op (h op (by simp))
    have h2 := opsBytes_least ops (a.next op) (fun x hx => h x (by simp [hx]))
    simp only [opsBytes, List.length_cons]
    omega

theorem sections_least : ∀ (secs : List (List Op × SectionHeader)), (∀ op ∈ secs.flatMap (·.1), 1 ≤ opLen op) →
    2 * (secs.flatMap (·.1)).length ≤ (secs.map fun s => opsBytes sizeBytes .zero s.1).sum
  | [], _ => by simp
  | s :: secs, h => by
    have h1 := opsBytes_least s.1 .zero (fun op ho => h op (by simp [ho]))
    have h2 := sections_least secs (fun op ho => h op (by
      rw [List.flatMap_cons]; exact List.mem_append_right _ ho))
    rw [List.flatMap_cons, List.length_append, List.map_cons, List.sum_cons]
    omega

theorem copyFromU_same (b : UInt8) : ∀ (n k pos : Nat), pos < k →
    copyFromU [] 0 n pos (List.replicate k b) = some (List.replicate (k + n) b)
  | 0, k, pos, _ => rfl
  | n + 1, k, pos, h => by
    have e : (([] : Bytes) ++ (List.replicate k b).drop 0)[pos]? = some b := by simp [h]
    rw [copyFromU, e]
    simp only
    have : List.replicate k b ++ [b] = List.replicate (k + 1) b := List.replicate_succ'.symm
    rw [this, copyFromU_same b n (k + 1) (pos + 1) (by omega)]
    congr 2
    omega

end Vcdiff

open Vcdiff

/-- **C104** (operations).  A well-formed stream without long sequences is converted to a patch that holds exactly the
operations of the translation. -/
theorem C104_operations (dbg dbgR : Bool) (cdc : Codec) (src : Option Bytes)
    (hsrc : ∀ b ∈ src, b.length < 2 ^ 63) (stream : List VMsg) (out : Bytes) (hm : vcdMeaning src stream = some out)
    (hout : out.length < 2 ^ 63) (hl : ¬ HasLongSequence stream) (w : Bytes) :
    ∃ q, convert dbg stream w = (.ok (), w ++ q) ∧ Holds dbgR cdc q (vcdTranslated stream) ∧
      (vcdTranslated stream).length = ((vcdInsts stream).map vcdInstCount).sum := by
  obtain ⟨q, secs, h1, -, -, h2, -⟩ := convert_made dbg dbgR cdc hsrc hm hout hl w
  exact ⟨q, h1, h2, (vcdOps_facts stream hm (by intro _ _ h; cases h) hl).1⟩

/-- **C104** (size).  The patch needs at most the literal bytes of the stream, 13 bytes for each operation and 14 for each
section, and each section but the last makes at least 16711681 bytes. -/
theorem C104_size (dbg dbgR : Bool) (cdc : Codec) (src : Option Bytes)
    (hsrc : ∀ b ∈ src, b.length < 2 ^ 63) (stream : List VMsg) (out : Bytes) (hm : vcdMeaning src stream = some out)
    (hout : out.length < 2 ^ 63) (hl : ¬ HasLongSequence stream) (w : Bytes) :
    ∃ q ss, convert dbg stream w = (.ok (), w ++ q) ∧ SectionsAt (VRead dbgR) cdc ss q [] ∧ Terminated ss ∧
      (∀ s ∈ ss.dropLast, 16711681 ≤ totalLen s.2) ∧
      q.length ≤ ((vcdInsts stream).map vcdInstAdds).sum + 13 * ((vcdInsts stream).map vcdInstCount).sum
        + 14 * (out.length / 16711681 + 1) := by
  obtain ⟨q, secs, h1, h2, h3, h4, h5, h6, h7, h8, h9, ss, k1, k2, k3⟩ := convert_made dbg dbgR cdc hsrc hm hout hl w
  obtain ⟨f1, f2, f3⟩ := vcdOps_facts stream hm (pos := 0) (seg := none) (by intro _ _ h; cases h) hl
  refine ⟨q, ss, h1, k1, k2, fun s hs => ?_, ?_⟩
  · have : s.2 ∈ (secs.map (·.1)).dropLast := by
      rw [← k3, ← List.map_dropLast]; exact List.mem_map_of_mem hs
    rw [← List.map_dropLast] at this
    obtain ⟨t, ht, e⟩ := List.mem_map.1 this
    rw [← e]
    exact h8 t ht
  · have hw := (written_length dbg .interleaved secs h5 h2).2
    have hs := sum_bytes sizeBytes (fun ops => bytesOf isAdd ops + 13 * ops.length)
      (fun xs ys => by simp only [bytesOf_append, List.length_append]; omega) rfl (fun ops => opsBytes_most ops .zero) secs
    rw [h7] at hs
    have hf := few_full secs h8
    have hlen := exec_length (show exec src (vcdTranslated stream) [] = some out from h9)
    rw [h7] at hf
    simp only [List.length_nil, Nat.zero_add] at hlen
    rw [← hlen] at hf
    have : secs.length - 1 ≤ out.length / 16711681 := (Nat.le_div_iff_mul_le (by omega)).2 (by omega)
    simp only [vcdTranslated] at hs
    rw [f1, f2] at hs
    simp only [List.length_append] at hw
    generalize ((vcdInsts stream).map vcdInstAdds).sum = x at *
    generalize ((vcdInsts stream).map vcdInstCount).sum = y at *
    generalize out.length / 16711681 = z at *
    omega

/-- **C104** (at least).  The patch needs at least two bytes for each operation and three for each section. -/
theorem C104_at_least (dbg dbgR : Bool) (cdc : Codec) (src : Option Bytes)
    (hsrc : ∀ b ∈ src, b.length < 2 ^ 63) (stream : List VMsg) (out : Bytes) (hm : vcdMeaning src stream = some out)
    (hout : out.length < 2 ^ 63) (hl : ¬ HasLongSequence stream) (w : Bytes) :
    ∃ q ss, convert dbg stream w = (.ok (), w ++ q) ∧ SectionsAt (VRead dbgR) cdc ss q [] ∧ Terminated ss ∧
      3 * ss.length + 2 * ((vcdInsts stream).map vcdInstCount).sum ≤ q.length := by
  obtain ⟨q, secs, h1, h2, h3, h4, h5, h6, h7, h8, h9, ss, k1, k2, k3⟩ := convert_made dbg dbgR cdc hsrc hm hout hl w
  obtain ⟨f1, f2, f3⟩ := vcdOps_facts stream hm (pos := 0) (seg := none) (by intro _ _ h; cases h) hl
  have hw := (written_length dbg .interleaved secs h5 h2).1
  have hs := sections_least secs (by rw [h7]; exact f3)
  rw [h7, vcdTranslated, f1] at hs
  have hlen : ss.length = secs.length := by simpa using congrArg List.length k3
  simp only [List.length_append] at hw
  exact ⟨q, ss, h1, k1, k2, by omega⟩

/-- A window that adds one byte and then copies it `n` times. -/
def repeated (b : UInt8) (n : Nat) : List VMsg :=
  [.windowSummary none none .neither,
    .inst (.add 1 (.ok [b])) (some (.copy (UInt32.ofNat (n + 1)) 0 (.copyQ (UInt32.ofNat n)))), .endOfWindow]

/-- **C104** (blow-up).  Two instructions that repeat a byte `n` times become `n + 1` operations, and the patch is more
than twice as long as the file it makes. -/
theorem C104_blow_up (dbg dbgR : Bool) (cdc : Codec) (b : UInt8) (n : Nat) (hn : n + 1 < 2 ^ 32) (w : Bytes) :
    vcdMeaning none (repeated b n) = some (List.replicate (n + 1) b) ∧
    ∃ q, convert dbg (repeated b n) w = (.ok (), w ++ q) ∧
      Holds dbgR cdc q (.add [b] :: List.replicate n (.copy .output 0 1)) ∧ 2 * (n + 1) + 3 ≤ q.length := by
  have t1 : (UInt32.ofNat (n + 1)).toNat = n + 1 := by rw [UInt32.toNat_ofNat']; omega
  have t3 : (n + 1) % 4294967296 = n + 1 := by omega
  have t2 : (UInt32.ofNat n).toNat = n := by rw [UInt32.toNat_ofNat']; omega
  have hm : vcdMeaning none (repeated b n) = some (List.replicate (n + 1) b) := by
    have hk : CopyKindOk 0 1 (n + 1) 0 (.copyQ (UInt32.ofNat n)) := by
      simp only [CopyKindOk, t2]; omega
    have := copyFromU_same b n 1 0 (by omega)
    simp only [List.replicate_one] at this
    simp [vcdMeaning, repeated, vcdRun, vcdSegment, vcdInst, t2, t3, hk, copyLen, this, Nat.add_comm]
  have hl : ¬ HasLongSequence (repeated b n) := by
    rintro ⟨m, h1, i, h2, h3⟩
    simp only [repeated, List.mem_cons, List.not_mem_nil, or_false] at h1
    rcases h1 with rfl | rfl | rfl
    · simp [msgInsts] at h2
    · simp only [msgInsts, List.mem_cons, List.not_mem_nil, or_false] at h2
      rcases h2 with rfl | rfl
      · exact h3
      · simp only [LongSequence, t1, t2] at h3
        omega
    · simp [msgInsts] at h2
  have hout : (List.replicate (n + 1) b).length < 2 ^ 63 := by rw [List.length_replicate]; omega
  have hops : vcdTranslated (repeated b n) = .add [b] :: List.replicate n (.copy .output 0 1) := by
    have c1 : cuts 65535 1 = [(0, 1)] := by decide
    have c2 : (cuts 1 n).map (fun x => Op.copy .output 0 (UInt16.ofNat x.2)) = List.replicate n (.copy .output 0 1) := by
      rw [List.eq_replicate_iff]
      refine ⟨by simp [cuts_length], ?_⟩
      intro op ho
      obtain ⟨⟨o, l⟩, hx, rfl⟩ := List.mem_map.1 ho
      have := cuts_mem (by omega) hx
      have : l = 1 := by omega
      rw [this]; rfl
    have : n + 1 - n = 1 := by omega
    simp [vcdTranslated, repeated, vcdOps, vcdInstOps, vcdInstLen, t2, t3, this, c1, c2]
  obtain ⟨q, k1, k2, k3⟩ := C104_operations dbg dbgR cdc none (by simp) _ _ hm hout hl w
  obtain ⟨q', ss, j1, j2, j3, j4⟩ := C104_at_least dbg dbgR cdc none (by simp) _ _ hm hout hl w
  rw [k1] at j1
  simp only [Prod.mk.injEq, true_and] at j1
  obtain rfl := List.append_cancel_left j1
  rw [← k3, hops] at j4
  have : 1 ≤ ss.length := by
    rcases ss with _ | _
    · exact absurd j3 (by simp [Terminated])
    · simp
  simp only [List.length_cons, List.length_replicate] at j4
  exact ⟨hm, q, k1, by rw [← hops]; exact k2, by omega⟩

/-- **C104** (the tools).  The patch is a step that can be merged with others (C44 to C48), and can be transcoded. -/
theorem C104_step (dbg dbgR : Bool) (cdc : Codec) (src : Option Bytes)
    (hsrc : ∀ b ∈ src, b.length < 2 ^ 63) (stream : List VMsg) (out : Bytes) (hm : vcdMeaning src stream = some out)
    (hout : out.length < 2 ^ 63) (hl : ¬ HasLongSequence stream) (w : Bytes) :
    ∃ q, convert dbg stream w = (.ok (), w ++ q) ∧ Step dbgR cdc src q out := by
  obtain ⟨q, secs, h1, -, h3, ⟨xs, st, h4, h5⟩, -⟩ := convert_made dbg dbgR cdc hsrc hm hout hl w
  refine ⟨q, h1, ⟨⟨_, h3⟩, hout, ?_⟩⟩
  intro ys st' h s hs
  rw [h4] at h
  cases h
  exact (vcdOps_facts stream hm (pos := 0) (seg := none) (by intro _ _ h; cases h) hl).2.2 _ (by
    have : s.2 ∈ vcdTranslated stream := by rw [h5]; exact List.mem_map_of_mem hs
    exact this)

theorem C104_transcodes (dbg dbgT dbgR : Bool) (cdc : Codec) (src : Option Bytes)
    (hsrc : ∀ b ∈ src, b.length < 2 ^ 63) (stream : List VMsg) (out : Bytes) (hm : vcdMeaning src stream = some out)
    (hout : out.length < 2 ^ 63) (hne : out ≠ []) (hl : ¬ HasLongSequence stream) (comp : Option SecComp)
    (hc : CompWorks cdc comp out) (fmt : Format) (n : Nat) (w w' : Bytes) :
    ∃ q p, convert dbg stream w = (.ok (), w ++ q) ∧ Transcoder.transcode dbgT cdc q fmt comp n w' = (.ok (), w' ++ p) ∧
      Gives dbgR cdc src p out := by
  obtain ⟨q, secs, h1, -, h3, ⟨xs, st, h4, h5⟩, -, -, -, -, h9, -⟩ := convert_made dbg dbgT cdc hsrc hm hout hl w
  have hf := (vcdOps_facts stream hm (pos := 0) (seg := none) (by intro _ _ h; cases h) hl).2.2
  obtain ⟨p, k1, k2⟩ := C51_transcode_preserves dbgT dbgR cdc comp fmt n q src hsrc out hc ⟨_, h3⟩ hout
    (by
      intro ys st' h s hs cs a l e
      rw [h4] at h
      cases h
      have : s.2 ∈ vcdTranslated stream := by rw [h5]; exact List.mem_map_of_mem hs
      have := hf _ this
      rw [e] at this
      exact this)
    ⟨xs, st, h4, by
      rintro rfl
      rw [h5] at h9
      simp only [List.map_nil, meaning, exec] at h9
      cases h9
      exact hne rfl⟩ w'
  exact ⟨q, p, h1, k1, (k2 src out).2 ⟨_, h3⟩⟩

/-! Cases that meet the hypotheses: the windows of C54, with a self-overlapping copy of period 2 and a run of 100. -/

example : vcdTranslated vcdTwo = [.add [1, 2, 3], .copy .output 1 2, .copy .output 1 2, .copy .output 1 1,
    .run 7 62, .run 7 38, .copy .output 5 2, .copy .output 106 2] := by decide +kernel

example : vcdTranslated vcdHello = [.add [72], .copy .dict 1 4, .add [33, 32], .copy .output 0 6] := by decide +kernel

example (dbg dbgR : Bool) (cdc : Codec) : ∃ q, convert dbg vcdTwo ([] : Bytes) = (.ok (), [] ++ q) ∧
    Holds dbgR cdc q (vcdTranslated vcdTwo) ∧ (vcdTranslated vcdTwo).length = ((vcdInsts vcdTwo).map vcdInstCount).sum :=
  C104_operations dbg dbgR cdc none (by simp) vcdTwo _ vcdTwo_meaning (by simp) (by decide) []

example : ((vcdInsts vcdTwo).map vcdInstAdds).sum = 3 ∧ ((vcdInsts vcdTwo).map vcdInstCount).sum = 8 := by decide

example (dbg dbgR : Bool) (cdc : Codec) : ∃ q, convert dbg vcdHello ([] : Bytes) = (.ok (), [] ++ q) ∧
    Step dbgR cdc (some [104, 101, 108, 108, 111]) q [72, 101, 108, 108, 111, 33, 32, 72, 101, 108, 108, 111, 33] :=
  C104_step dbg dbgR cdc _ (by simp) vcdHello _ vcdHello_meaning (by simp) (by decide) []

/-- A hundred bytes take 203. -/
example : ((convert true (repeated 7 99) ([] : Bytes)).2).length = 203 := by decide +kernel

end Smdiff
