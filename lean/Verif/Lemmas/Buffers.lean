import Verif.Model.Buffers
import Verif.Model.Merger
/-!
# Helper lemmas: buffers passed in by the caller
-/
namespace Smdiff

theorem readInterBuf_eq (dbg : Bool) : ∀ (n : Nat) (a : Addrs) (cs : UInt32) (s : ReadSt),
    ∃ ops', readInterBuf dbg n a cs s =
        ((readOpsInter dbg n a cs s.source).1 >>= fun x => .ok x.2,
          ⟨(readOpsInter dbg n a cs s.source).2, s.buffer ++ ops', s.numAdd⟩) ∧ ops'.length ≤ n ∧
      ∀ ops c, (readOpsInter dbg n a cs s.source).1 = .ok (ops, c) → ops' = ops := by
  intro n
  induction n with
  | zero => intro a cs s; exact ⟨[], by simp [readInterBuf, readOpsInter], by simp, by simp [readOpsInter]⟩
  | succ n ih =>
    intro a cs s
    simp only [readInterBuf, readOpsInter, IOm.bind_run, onSource]
    rcases h : readOp dbg a true s.source with ⟨⟨op, a'⟩ | e | _ | _, rest⟩
    · simp only [IOm.lift_run]
      rcases hc : addU32 dbg cs op.oal.toUInt32 with c | e | _ | _
      · simp only [pushOp]
        obtain ⟨ops', k1, k2, k3⟩ := ih a' c ⟨rest, s.buffer ++ [op], s.numAdd⟩
        rw [k1]
        rcases hr : readOpsInter dbg n a' c rest with ⟨⟨ops, c'⟩ | e | _ | _, rest'⟩
        · rw [hr] at k3
          obtain rfl := k3 _ _ rfl
          exact ⟨op :: ops', by simp, by simpa using k2, by simp⟩
        all_goals exact ⟨op :: ops', by simp, by simpa using k2, by simp⟩
      all_goals exact ⟨[], by simp, by simp, by simp⟩
    all_goals exact ⟨[], by simp, by simp, by simp⟩

/-- The positions of the Adds, counted from `k`. -/
def addIdxs : Nat → List Op → List Nat
  | _, [] => []
  | k, op :: ops => if op.isAdd then k :: addIdxs (k + 1) ops else addIdxs (k + 1) ops

theorem readSegBuf_eq (dbg : Bool) (off : Nat) : ∀ (n i : Nat) (a : Addrs) (cs : UInt32) (idxs : List Nat) (s : ReadSt),
    ∃ ops' m', readSegBuf dbg off n i a cs idxs s =
        ((readOpsSeg dbg n a cs s.numAdd s.source).1 >>= fun x => .ok (x.2.1, idxs ++ addIdxs (off + i) ops'),
          ⟨(readOpsSeg dbg n a cs s.numAdd s.source).2, s.buffer ++ ops', m'⟩) ∧ ops'.length ≤ n ∧
      ∀ ops c m, (readOpsSeg dbg n a cs s.numAdd s.source).1 = .ok (ops, c, m) → ops' = ops ∧ m' = m := by
  intro n
  induction n with
  | zero =>
    intro i a cs idxs s
    exact ⟨[], s.numAdd, by simp [readSegBuf, readOpsSeg, addIdxs], by simp, by simp [readOpsSeg]⟩
  | succ n ih =>
    intro i a cs idxs s
    simp only [readSegBuf, readOpsSeg, IOm.bind_run, onSource]
    rcases h : readOp dbg a false s.source with ⟨⟨op, a'⟩ | e | _ | _, rest⟩
    · simp only [IOm.lift_run]
      rcases hc : addU32 dbg cs op.oal.toUInt32 with c | e | _ | _
      · simp only [countAdd]
        by_cases ha : op.isAdd = true
        · simp only [ha, if_true, IOm.bind_run, IOm.lift_run]
          rcases hm : addU32 dbg s.numAdd op.oal.toUInt32 with m | e | _ | _
          · simp only [pushOp]
            obtain ⟨ops', m', k1, k2, k3⟩ := ih (i + 1) a' c (idxs ++ [off + i]) ⟨rest, s.buffer ++ [op], m⟩
            rw [k1]
            rcases hr : readOpsSeg dbg n a' c m rest with ⟨⟨ops, c', m2⟩ | e | _ | _, rest'⟩
            · rw [hr] at k3
              obtain ⟨rfl, rfl⟩ := k3 _ _ _ rfl
              exact ⟨op :: ops', m', by simp [addIdxs, ha, Nat.add_assoc], by simpa using k2, by simp⟩
            all_goals exact ⟨op :: ops', m', by simp, by simpa using k2, by simp⟩
          all_goals exact ⟨[], s.numAdd, by simp, by simp, by simp⟩
        · simp only [ha, if_false, Bool.false_eq_true, IOm.bind_run, IOm.pure_run, pushOp]
          obtain ⟨ops', m', k1, k2, k3⟩ := ih (i + 1) a' c idxs ⟨rest, s.buffer ++ [op], s.numAdd⟩
          rw [k1]
          rcases hr : readOpsSeg dbg n a' c s.numAdd rest with ⟨⟨ops, c', m2⟩ | e | _ | _, rest'⟩
          · rw [hr] at k3
            obtain ⟨rfl, rfl⟩ := k3 _ _ _ rfl
            exact ⟨op :: ops', m', by simp [addIdxs, ha, Nat.add_assoc], by simpa using k2, by simp⟩
          all_goals exact ⟨op :: ops', m', by simp, by simpa using k2, by simp⟩
      all_goals exact ⟨[], s.numAdd, by simp, by simp, by simp⟩
    all_goals exact ⟨[], s.numAdd, by simp, by simp, by simp⟩

theorem fillBuf_eq : ∀ (ops pre : List Op) (src : Bytes) (m : UInt32),
    ∃ ops', fillBuf (addIdxs pre.length ops) ⟨src, pre ++ ops, m⟩ =
        ((fillAdds ops src).1 >>= fun _ => .ok (), ⟨(fillAdds ops src).2, pre ++ ops', m⟩) ∧
      ops'.length = ops.length ∧ ∀ o, (fillAdds ops src).1 = .ok o → ops' = o := by
  intro ops
  induction ops with
  | nil => intro pre src m; exact ⟨[], by simp [fillBuf, addIdxs, fillAdds], rfl, by simp [fillAdds]⟩
  | cons op ops ih =>
    intro pre src m
    have hlen : ∀ o : Op, (pre ++ [o]).length = pre.length + 1 := by simp
    rcases op with ⟨b, n⟩ | ⟨sr, a, n⟩ | bytes
    case add =>
      have h0 : (pre ++ Op.add bytes :: ops)[pre.length]? = some (.add bytes) := by simp
      simp only [addIdxs, Op.isAdd, if_true, fillBuf, h0, fillAdds, IOm.bind_run]
      rcases hr : readExact bytes.length src with ⟨bs | e | _ | _, rest⟩
      · simp only
        have hset : (pre ++ Op.add bytes :: ops).set pre.length (.add bs) = (pre ++ [.add bs]) ++ ops := by
          simp
        rw [hset]
        obtain ⟨ops', k1, k2, k3⟩ := ih (pre ++ [.add bs]) rest m
        rw [hlen] at k1
        rw [k1]
        rcases hf : fillAdds ops rest with ⟨o | e | _ | _, rest'⟩
        · rw [hf] at k3
          obtain rfl := k3 _ rfl
          exact ⟨.add bs :: ops', by simp, by simpa using k2, by simp⟩
        all_goals exact ⟨.add bs :: ops', by simp, by simpa using k2, by simp⟩
      all_goals exact ⟨.add bytes :: ops, by simp, rfl, by simp⟩
    all_goals
      simp only [addIdxs, Op.isAdd, Bool.false_eq_true, if_false, fillAdds, IOm.bind_run]
      obtain ⟨ops', k1, k2, k3⟩ := ih (pre ++ [_]) src m
      rw [hlen, List.append_assoc, List.singleton_append] at k1
      rw [k1]
      rcases hf : fillAdds ops src with ⟨o | e | _ | _, rest'⟩
      · rw [hf] at k3
        obtain rfl := k3 _ rfl
        exact ⟨_ :: ops', by simp; rfl, by simpa using k2, by simp⟩
      all_goals exact ⟨_ :: ops', by simp; rfl, by simpa using k2, by simp⟩

/-- `read_ops_no_comp` on a buffer appends what it reads. -/
theorem readOpsBuf_eq (dbg : Bool) (h : SectionHeader) (src : Bytes) (buf : List Op) :
    ∃ ops' m', readOpsBuf dbg h ⟨src, buf, h.numAddBytes⟩ =
        ((readOpsNoComp dbg h src).1 >>= fun _ => .ok (), ⟨(readOpsNoComp dbg h src).2, buf ++ ops', m'⟩) ∧
      ops'.length ≤ h.numOperations.toNat ∧
      ∀ ops h', (readOpsNoComp dbg h src).1 = .ok (ops, h') → ops' = ops ∧ h' = { h with numAddBytes := m' } := by
  simp only [readOpsBuf, readOpsNoComp]
  rcases hf : h.format with _ | _
  · simp only [IOm.bind_run]
    obtain ⟨ops', k1, k2, k3⟩ := readInterBuf_eq dbg h.numOperations.toNat .zero 0 ⟨src, buf, h.numAddBytes⟩
    simp only [k1]
    simp only at k3
    rcases hr : readOpsInter dbg h.numOperations.toNat .zero 0 src with ⟨⟨ops, c⟩ | e | _ | _, rest⟩
    · rw [hr] at k3
      obtain rfl := k3 _ _ rfl
      by_cases hc : c = h.outputSize
      · exact ⟨ops', h.numAddBytes, by simp [hc], k2, by simp [hc]; rw [← hf]⟩
      · exact ⟨ops', h.numAddBytes, by simp [hc], k2, by simp [hc]⟩
    all_goals exact ⟨ops', h.numAddBytes, by simp, k2, by simp⟩
  · simp only [IOm.bind_run]
    obtain ⟨ops', m', k1, k2, k3⟩ := readSegBuf_eq dbg buf.length h.numOperations.toNat 0 .zero 0 [] ⟨src, buf, h.numAddBytes⟩
    simp only [k1]
    simp only at k3
    rcases hr : readOpsSeg dbg h.numOperations.toNat .zero 0 h.numAddBytes src with ⟨⟨ops, c, m⟩ | e | _ | _, rest⟩
    · rw [hr] at k3
      obtain ⟨rfl, rfl⟩ := k3 _ _ _ rfl
      by_cases hc : c = h.outputSize
      · obtain ⟨o, g1, g2, g3⟩ := fillBuf_eq ops' buf rest m'
        refine ⟨o, m', ?_, by omega, ?_⟩
        · simp only [Outcome.ok_bind, List.nil_append, Nat.add_zero, hc, ne_eq, not_true_eq_false, if_false, g1]
          rcases hfill : fillAdds ops' rest with ⟨x | _ | _ | _, _⟩ <;> simp [IOm.bind_run, hfill]
        · simp only [hc, ne_eq, not_true_eq_false, if_false]
          rcases hfill : fillAdds ops' rest with ⟨x | _ | _ | _, _⟩ <;> simp [IOm.bind_run, hfill]
          rw [hfill] at g3
          obtain rfl := g3 _ rfl
          simp
      · exact ⟨ops', m', by simp [hc], k2, by simp [hc]⟩
    all_goals exact ⟨ops', m', by simp, k2, by simp⟩

end Smdiff
