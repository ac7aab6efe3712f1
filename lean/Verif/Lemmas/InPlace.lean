import Verif.Lemmas.Origin
import Verif.Lemmas.Encode
import Verif.SpecInPlace
/-!
# A stored byte and the places it goes to
-/
namespace Smdiff
open Spec

/-- Whatever the byte is, the operations give `out` with this byte at the places `K`. -/
def Controls (src : Option Bytes) (F : UInt8 → List Op) (out : Bytes) (K : Nat → Bool) : Prop :=
  ∀ b, ∃ out', exec src (F b) [] = some out' ∧ ChangedAt K b out out'

theorem exec_snoc {src : Option Bytes} {ops : List Op} {op : Op} {out z : Bytes}
    (h : exec src (ops ++ [op]) out = some z) :
    ∃ mid bs, exec src ops out = some mid ∧ produce src mid op = some bs ∧ z = mid ++ bs := by
  rw [exec_append, Option.bind_eq_some_iff] at h
  obtain ⟨mid, h1, h2⟩ := h
  simp only [exec, Option.bind_eq_some_iff, Option.some.injEq] at h2
  obtain ⟨bs, h3, rfl⟩ := h2
  exact ⟨mid, bs, h1, h3, rfl⟩

theorem exec_snoc_of {src : Option Bytes} {ops : List Op} {op : Op} {out mid bs : Bytes}
    (h1 : exec src ops out = some mid) (h2 : produce src mid op = some bs) :
    exec src (ops ++ [op]) out = some (mid ++ bs) := by
  rw [exec_append, h1]
  simp [exec, h2]

/-- The Add that stores the byte. -/
theorem controls_add {src : Option Bytes} {a : List Op} {u v mid bs : Bytes} {b : UInt8}
    (h1 : exec src a [] = some mid) (h2 : produce src mid (.add (u ++ b :: v)) = some bs) :
    Controls src (fun b => a ++ [.add (u ++ b :: v)]) (mid ++ bs) (fun j => decide (j = mid.length + u.length)) := by
  simp only [produce, Option.some.injEq] at h2
  subst h2
  refine fun b' => ⟨mid ++ (u ++ b' :: v), exec_snoc_of h1 rfl, by simp, fun j hj => ?_⟩
  simp only [decide_eq_true_eq, List.getElem?_append]
  by_cases hj1 : j < mid.length
  · rw [if_pos hj1, if_pos hj1, if_neg (by omega)]
  · rw [if_neg hj1, if_neg hj1]
    by_cases hj2 : j - mid.length < u.length
    · rw [if_pos hj2, if_pos hj2, if_neg (by omega)]
    · rw [if_neg hj2, if_neg hj2]
      by_cases hj3 : j = mid.length + u.length
      · rw [if_pos hj3, show j - mid.length - u.length = 0 by omega]; rfl
      · rw [if_neg hj3]
        obtain ⟨t, ht⟩ : ∃ t, j - mid.length - u.length = t + 1 := ⟨j - mid.length - u.length - 1, by omega⟩
        rw [ht]; rfl

/-- The Run that stores the byte. -/
theorem controls_run {src : Option Bytes} {a : List Op} {n : UInt8} {mid bs : Bytes} {b : UInt8}
    (h1 : exec src a [] = some mid) (h2 : produce src mid (.run b n) = some bs) :
    Controls src (fun b => a ++ [.run b n]) (mid ++ bs) (fun j => decide (mid.length ≤ j)) := by
  simp only [produce, Option.some.injEq] at h2
  subst h2
  refine fun b' => ⟨mid ++ List.replicate n.toNat b', exec_snoc_of h1 rfl, by simp, fun j hj => ?_⟩
  simp only [List.length_append, List.length_replicate] at hj
  simp only [decide_eq_true_eq]
  by_cases hj1 : j < mid.length
  · rw [if_neg (by omega), List.getElem?_append_left hj1, List.getElem?_append_left hj1]
  · rw [if_pos (by omega), List.getElem?_append_right (by omega), List.getElem?_replicate, if_pos (by omega)]

/-- The operation that stores the byte. -/
theorem controls_store {src : Option Bytes} {a : List Op} {g : UInt8 → Op} (hg : Stores g) {mid bs : Bytes} {b : UInt8}
    (h1 : exec src a [] = some mid) (h2 : produce src mid (g b) = some bs) :
    ∃ K, Controls src (fun b => a ++ [g b]) (mid ++ bs) K ∧
      (bs ≠ [] → ∃ j, j < bs.length ∧ K (mid.length + j) = true) := by
  cases hg with
  | add u v =>
    refine ⟨_, controls_add h1 h2, fun _ => ⟨u.length, ?_, by simp⟩⟩
    simp only [produce, Option.some.injEq] at h2
    subst h2
    simp
  | run n => exact ⟨_, controls_run h1 h2, fun hne => ⟨0, List.length_pos_iff.2 hne, by simp⟩⟩

theorem range_of_len {a n : Nat} {xs ys r : Bytes} (hl : ys.length = xs.length) (h : range xs a n = some r) :
    range ys a n = some ((ys.drop a).take n) ∧ r = (xs.drop a).take n ∧ (n = 0 ∨ a + n ≤ xs.length) := by
  unfold range at h ⊢
  split at h
  · next hc => rw [if_pos (by rw [hl]; exact hc)]; exact ⟨rfl, by simpa using h.symm, hc⟩
  · cases h

/-- The operations behind it. -/
theorem controls_snoc {src : Option Bytes} {F : UInt8 → List Op} {out bs : Bytes} {K : Nat → Bool} {op : Op}
    (h : Controls src F out K) (hp : produce src out op = some bs) :
    ∃ K', Controls src (fun b => F b ++ [op]) (out ++ bs) K' ∧ (∀ j, j < out.length → K' j = K j) ∧
      ∀ a n, op = .copy .output a n → ∀ j, j < n.toNat → K' (out.length + j) = K (a.toNat + j) := by
  by_cases hc : ∃ a n, op = .copy .output a n
  · obtain ⟨a, n, rfl⟩ := hc
    simp only [produce] at hp
    refine ⟨fun j => if j < out.length then K j else K (a.toNat + (j - out.length)), fun b => ?_, ?_, ?_⟩
    · obtain ⟨out', h1, h2, h3⟩ := h b
      obtain ⟨r1, rfl, r3⟩ := range_of_len h2 hp
      refine ⟨out' ++ (out'.drop a.toNat).take n.toNat, exec_snoc_of h1 r1, by simp [h2], fun j hj => ?_⟩
      show _ = if (if j < out.length then K j else K (a.toNat + (j - out.length))) = true then some b else _
      by_cases hj1 : j < out.length
      · rw [if_pos hj1, List.getElem?_append_left (by omega), List.getElem?_append_left hj1]
        exact h3 j hj1
      · rw [if_neg hj1, List.getElem?_append_right (by omega), List.getElem?_append_right (by omega), h2]
        simp only [List.length_append, List.length_take, List.length_drop] at hj
        rw [List.getElem?_take_of_lt (by omega), List.getElem?_take_of_lt (by omega), List.getElem?_drop,
          List.getElem?_drop]
        exact h3 _ (by omega)
    · intro j hj; simp [hj]
    · intro a' n' e j hj
      cases e
      simp
  · have hp' : ∀ xs, produce src xs op = some bs := by
      intro xs
      rcases op with ⟨b, n⟩ | ⟨_ | _, a, n⟩ | as
      · exact hp
      · exact hp
      · exact absurd ⟨a, n, rfl⟩ hc
      · exact hp
    refine ⟨fun j => if j < out.length then K j else false, fun b => ?_, fun j hj => by simp [hj],
      fun a n e => absurd ⟨a, n, e⟩ hc⟩
    obtain ⟨out', h1, h2, h3⟩ := h b
    refine ⟨out' ++ bs, exec_snoc_of h1 (hp' _), by simp [h2], fun j hj => ?_⟩
    show _ = if (if j < out.length then K j else false) = true then some b else _
    by_cases hj1 : j < out.length
    · rw [if_pos hj1, List.getElem?_append_left (by omega), List.getElem?_append_left hj1]
      exact h3 j hj1
    · rw [if_neg hj1, List.getElem?_append_right (by omega), List.getElem?_append_right (by omega), h2]
      rfl

/-- Every stored byte controls its places, whatever stands around it. -/
theorem controls_of_meaning {src : Option Bytes} {a : List Op} {g : UInt8 → Op} (hg : Stores g) {b : UInt8} (c : List Op) :
    ∀ {out : Bytes}, meaning src (a ++ g b :: c) = some out →
    ∃ K, Controls src (fun b => a ++ g b :: c) out K ∧ (1 ≤ opLen (g b) → ∃ k, k < out.length ∧ K k = true) := by
  induction c using List.reverseRecOn with
  | nil =>
    intro out h
    obtain ⟨mid, bs, h1, h2, rfl⟩ := exec_snoc h
    obtain ⟨K, k1, k3⟩ := controls_store hg h1 h2
    refine ⟨K, k1, fun hl => ?_⟩
    have hb : bs ≠ [] := by
      rintro rfl
      cases hg <;> simp_all [produce, opLen]
    obtain ⟨j, hj, hk⟩ := k3 hb
    exact ⟨mid.length + j, by simp [hj], hk⟩
  | append_singleton c op ih =>
    intro out h
    rw [show a ++ g b :: (c ++ [op]) = (a ++ g b :: c) ++ [op] by simp] at h
    obtain ⟨mid, bs, h1, h2, rfl⟩ := exec_snoc h
    obtain ⟨K, k1, k2⟩ := ih h1
    obtain ⟨K', g1, g2, -⟩ := controls_snoc k1 h2
    refine ⟨K', ?_, fun hl => ?_⟩
    · simpa using g1
    · obtain ⟨k, hk, hK⟩ := k2 hl
      exact ⟨k, by simp; omega, by rw [g2 k hk, hK]⟩

/-- Every byte that was written by a patch is controlled by a byte stored in it. -/
theorem controls_of_trace {src : Option Bytes} (ops : List Op) :
    ∀ {os : List Origin} {k : Nat} {b : UInt8}, trace (src.map itself) ops = some os →
    os[k]? = some (.written b) → ∃ a g c K, ops = a ++ g b :: c ∧ Stores g ∧ K k = true ∧
      Controls src (fun b => a ++ g b :: c) (os.map (Origin.byte (src.getD []))) K := by
  induction ops using List.reverseRecOn with
  | nil => intro os k b h hk; simp [trace, traceFrom] at h; subst h; simp at hk
  | append_singleton ops op ih =>
    intro os k b h hk
    have hd := itself_bytes src
    have hcut : ∀ (l : List Op) (x : List Origin), traceFrom (src.map itself) (l ++ [op]) x
        = (traceFrom (src.map itself) l x).bind fun m => (producedFrom (src.map itself) m op).map (m ++ ·) := by
      intro l
      induction l with
      | nil => intro x; simp only [List.nil_append, traceFrom, Option.bind_some]; cases producedFrom (src.map itself) x op <;> rfl
      | cons o l il =>
        intro x
        simp only [List.cons_append, traceFrom]
        cases producedFrom (src.map itself) x o
        · rfl
        · exact il _
    rw [trace, hcut, Option.bind_eq_some_iff] at h
    obtain ⟨m, h1, h2⟩ := h
    rw [Option.map_eq_some_iff] at h2
    obtain ⟨ns, h3, rfl⟩ := h2
    have hf : Reads (Origin.byte (src.getD [])) := reads_byte _
    have hm : meaning src ops = some (m.map (Origin.byte (src.getD []))) := by
      have := meaning_of_trace hf h1
      rwa [hd] at this
    have hp : produce src (m.map (Origin.byte (src.getD []))) op = some (ns.map (Origin.byte (src.getD []))) := by
      have := producedFrom_map hf (src.map itself) m op
      rw [hd, h3] at this
      exact this.symm
    rw [List.map_append]
    have before : ∀ k' : Nat, m[k']? = some (.written b) → k' < m.length →
        ∃ (a : List Op) (g : UInt8 → Op) (c : List Op) (K K' : Nat → Bool), ops ++ [op] = a ++ g b :: (c ++ [op]) ∧ Stores g ∧ K k' = true ∧
          Controls src (fun b => a ++ g b :: (c ++ [op]))
            (m.map (Origin.byte (src.getD [])) ++ ns.map (Origin.byte (src.getD []))) K' ∧
          (∀ j, j < m.length → K' j = K j) ∧
          ∀ a n, op = .copy .output a n → ∀ j, j < n.toNat → K' (m.length + j) = K (a.toNat + j) := by
      intro k' hk' hl
      obtain ⟨a, g, c, K, rfl, g1, g2, g3⟩ := ih h1 hk'
      obtain ⟨K', f1, f2, f3⟩ := controls_snoc g3 hp
      refine ⟨a, g, c, K, K', by simp, g1, g2, by simpa using f1, ?_, ?_⟩
      · intro j hj; exact f2 j (by simpa using hj)
      · intro a n e j hj
        have := f3 a n e j hj
        simpa using this
    by_cases hlt : k < m.length
    · rw [List.getElem?_append_left hlt] at hk
      obtain ⟨a, g, c, K, K', e, g1, g2, g3, g4, -⟩ := before k hk hlt
      exact ⟨a, g, c ++ [op], K', e, g1, by rw [g4 k hlt]; exact g2, g3⟩
    · rw [List.getElem?_append_right (by omega)] at hk
      have store : ∀ g : UInt8 → Op, Stores g → op = g b →
          (∀ K : Nat → Bool, Controls src (fun b => ops ++ [g b])
            (m.map (Origin.byte (src.getD [])) ++ ns.map (Origin.byte (src.getD []))) K →
            K k = true →
          ∃ a g c K, ops ++ [op] = a ++ g b :: c ∧ Stores g ∧ K k = true ∧
            Controls src (fun b => a ++ g b :: c)
              (m.map (Origin.byte (src.getD [])) ++ ns.map (Origin.byte (src.getD []))) K) := by
        intro g hg e K hK hk
        exact ⟨ops, g, [], K, by rw [e], hg, hk, hK⟩
      rcases op with ⟨x, n⟩ | ⟨_ | _, x, n⟩ | bs
      · simp only [producedFrom, Option.some.injEq] at h3
        subst h3
        rw [List.getElem?_replicate] at hk
        split at hk
        swap
        · cases hk
        simp only [Option.some.injEq, Origin.written.injEq] at hk
        subst hk
        refine store (fun b => .run b n) (.run n) rfl (fun j => decide (m.length ≤ j)) ?_ (by simp; omega)
        intro b'
        refine ⟨_, exec_snoc_of hm rfl, by simp, fun j hj => ?_⟩
        simp only [List.length_append, List.length_map, List.length_replicate] at hj
        simp only [decide_eq_true_eq]
        by_cases hj1 : j < m.length
        · rw [if_neg (by omega), List.getElem?_append_left (by simpa using hj1),
            List.getElem?_append_left (by simpa using hj1)]
        · rw [if_pos (by omega), List.getElem?_append_right (by simp; omega), List.getElem?_replicate,
            if_pos (by simp; omega)]
      · exfalso
        simp only [producedFrom] at h3
        rcases src with _ | s
        · simp at h3
        · simp only [Option.map_some, Option.bind_some] at h3
          obtain ⟨-, hmem⟩ := mem_rangeOf h3
          have := hmem _ (List.mem_of_getElem? hk)
          simp [itself] at this
      · simp only [producedFrom, rangeOf] at h3
        split at h3
        swap
        · cases h3
        next hr =>
        simp only [Option.some.injEq] at h3
        subst h3
        have hkn : k - m.length < n.toNat := by
          apply Classical.byContradiction
          intro hc
          rw [List.getElem?_eq_none (by rw [List.length_take]; omega)] at hk
          cases hk
        rw [List.getElem?_take_of_lt hkn, List.getElem?_drop] at hk
        obtain ⟨a, g, c, K, K', e, g1, g2, g3, -, g5⟩ := before _ hk (by omega)
        refine ⟨a, g, c ++ [.copy .output x n], K', e, g1, ?_, g3⟩
        have := g5 x n rfl (k - m.length) hkn
        rw [show m.length + (k - m.length) = k by omega] at this
        rw [this]; exact g2
      · simp only [producedFrom, Option.some.injEq] at h3
        subst h3
        rw [List.getElem?_map, Option.map_eq_some_iff] at hk
        obtain ⟨b0, hk, hb⟩ := hk
        cases hb
        obtain ⟨hlt2, hget⟩ := List.getElem?_eq_some_iff.1 hk
        have hsplit : bs = bs.take (k - m.length) ++ b :: bs.drop (k - m.length + 1) := by
          rw [← hget, List.getElem_cons_drop, List.take_append_drop]
        have hp2 : produce src (m.map (Origin.byte (src.getD [])))
            (.add (bs.take (k - m.length) ++ b :: bs.drop (k - m.length + 1))) = some bs := by
          rw [← hsplit]; rfl
        have hns : (bs.map Origin.written).map (Origin.byte (src.getD [])) = bs := by
          rw [List.map_map]
          conv_rhs => rw [← List.map_id bs]
          exact List.map_congr_left fun b _ => hf b
        refine ⟨ops, _, [], _, congrArg (fun x => ops ++ [Op.add x]) hsplit, .add (bs.take (k - m.length)) (bs.drop (k - m.length + 1)), ?_,
          by rw [hns]; exact controls_add hm hp2⟩
        simp
        omega

/-! ## On the wire -/

theorem opsEnc_split {V : Bytes → Nat → Prop} {inl : Bool} {a c : List Op} :
    ∀ {d o : UInt64} {x : Bytes}, OpsEnc V inl d o (a ++ c) x →
    ∃ d' o' y z, x = y ++ z ∧ OpsEnc V inl d' o' c z ∧
      ∀ c' z', OpsEnc V inl d' o' c' z' → OpsEnc V inl d o (a ++ c') (y ++ z') := by
  induction a with
  | nil => intro d o x h; exact ⟨d, o, [], x, rfl, h, fun _ _ h => h⟩
  | cons op a ih =>
    intro d o x h
    cases h with
    | cons _ _ d1 o1 _ _ bs bss h1 h2 =>
      obtain ⟨d', o', y, z, rfl, k1, k2⟩ := ih h2
      exact ⟨d', o', bs ++ y, z, by simp, k1, fun c' z' h => by
        rw [List.append_assoc]; exact .cons _ _ _ _ _ _ _ _ h1 (k2 c' z' h)⟩

theorem addBytes_cut (a : List Op) (op : Op) (c : List Op) :
    addBytes (a ++ op :: c) = addBytes a ++ (opAdd op ++ addBytes c) := by
  simp [addBytes]

theorem bodyEnc_at {V : Bytes → Nat → Prop} {seg : Bool} {a c : List Op} {g : UInt8 → Op} (hg : Stores g) {b : UInt8}
    {x : Bytes} (h : BodyEnc V seg (a ++ g b :: c) x) :
    ∃ y z, x = y ++ b :: z ∧ ∀ b', BodyEnc V seg (a ++ g b' :: c) (y ++ b' :: z) := by
  obtain ⟨ib, h1, rfl⟩ := h
  obtain ⟨d, o, y, z, rfl, k1, k2⟩ := opsEnc_split h1
  cases k1 with
  | cons _ _ d' o' _ _ bs bss e1 e2 =>
  cases hg with
  | run n =>
    cases e1 with
    | run _ _ r1 r2 =>
      refine ⟨y ++ [UInt8.ofNat (64 * 3 + n.toNat)],
        bss ++ if seg = true then addBytes (a ++ .run b n :: c) else [], by simp, fun b' => ?_⟩
      refine ⟨_, k2 _ _ (.cons _ _ _ _ _ _ _ _ (.run _ _ b' n r1 r2) e2), ?_⟩
      simp [addBytes_cut, opAdd]
  | add u v =>
    cases e1 with
    | add hd _ r1 =>
      have hr : ∀ b' : UInt8, SizeEnc 2 hd (u ++ b' :: v).length := by
        intro b'
        simpa using r1
      cases seg
      · refine ⟨y ++ hd ++ u, v ++ bss, by simp, fun b' => ?_⟩
        refine ⟨_, k2 _ _ (.cons _ _ _ _ _ _ _ _ (.add _ _ hd (u ++ b' :: v) (hr b')) e2), ?_⟩
        simp
      · refine ⟨y ++ (hd ++ bss) ++ addBytes a ++ u, v ++ addBytes c, by simp [addBytes_cut, opAdd], fun b' => ?_⟩
        refine ⟨_, k2 _ _ (.cons _ _ _ _ _ _ _ _ (.add _ _ hd (u ++ b' :: v) (hr b')) e2), ?_⟩
        simp [addBytes_cut, opAdd]

theorem patchEnc_cons {V : Bytes → Nat → Prop} {s : Header × List Op} {ss : List (Header × List Op)} {x : Bytes}
    (hne : ss ≠ []) (h : PatchEnc V (s :: ss) x) :
    s.1.more = true ∧ ∃ bs bss, SectionEnc V s.1 s.2 bs ∧ PatchEnc V ss bss ∧ x = bs ++ bss := by
  cases h with
  | last _ _ _ hm he => exact absurd rfl hne
  | more _ _ bs _ bss hm he hp => exact ⟨hm, bs, bss, he, hp, rfl⟩

theorem patchEnc_at {V : Bytes → Nat → Prop} {hd : Header} {a c : List Op} {g : UInt8 → Op} (hg : Stores g) {b : UInt8}
    {post : List (Header × List Op)} (pre : List (Header × List Op)) :
    ∀ {x : Bytes}, PatchEnc V (pre ++ (hd, a ++ g b :: c) :: post) x →
    ∃ y z, x = y ++ b :: z ∧ ∀ b', PatchEnc V (pre ++ (hd, a ++ g b' :: c) :: post) (y ++ b' :: z) := by
  induction pre with
  | nil =>
    intro x h
    cases h with
    | last _ _ _ hm he =>
      obtain ⟨hb, ob, h1, h2, rfl⟩ := he
      obtain ⟨y, z, rfl, k⟩ := bodyEnc_at hg h2
      exact ⟨hb ++ y, z, by simp, fun b' => .last _ _ _ hm ⟨hb, _, h1, k b', by simp⟩⟩
    | more _ _ _ _ bss hm he hp =>
      obtain ⟨hb, ob, h1, h2, rfl⟩ := he
      obtain ⟨y, z, rfl, k⟩ := bodyEnc_at hg h2
      refine ⟨hb ++ y, z ++ bss, by simp, fun b' => ?_⟩
      have := PatchEnc.more (V := V) _ _ _ _ _ hm ⟨hb, _, h1, k b', rfl⟩ hp
      simpa using this
  | cons s pre ih =>
    intro x h
    obtain ⟨hm, bs, bss, he, hp, rfl⟩ := patchEnc_cons (by simp) h
    obtain ⟨y, z, rfl, k⟩ := ih hp
    refine ⟨bs ++ y, z, by simp, fun b' => ?_⟩
    have := PatchEnc.more (V := V) _ _ _ _ _ hm he (k b')
    simpa using this

theorem stores_len {g : UInt8 → Op} (hg : Stores g) (b b' : UInt8) : opLen (g b') = opLen (g b) := by
  cases hg <;> simp [opLen]

theorem stores_addLen {g : UInt8 → Op} (hg : Stores g) (b b' : UInt8) :
    (opAdd (g b')).length = (opAdd (g b)).length := by
  cases hg <;> simp [opAdd]

theorem consistent_at {hd : Header} {a c : List Op} {g : UInt8 → Op} (hg : Stores g) {b : UInt8} (b' : UInt8)
    (h : Consistent hd (a ++ g b :: c)) : Consistent hd (a ++ g b' :: c) := by
  obtain ⟨h1, h2, h3, h4, h5⟩ := h
  have ht : totalLen (a ++ g b' :: c) = totalLen (a ++ g b :: c) := by
    simp [totalLen, stores_len hg b b']
  have hl : (a ++ g b' :: c).length = (a ++ g b :: c).length := by simp
  have ha : (addBytes (a ++ g b' :: c)).length = (addBytes (a ++ g b :: c)).length := by
    simp only [addBytes_cut, List.length_append, stores_addLen hg b b']
  exact ⟨by rw [hl]; exact h1, by rw [hl]; exact h2, by rw [ht]; exact h3, by rw [ha]; exact h4, by rw [ht]; exact h5⟩

end Smdiff
