import Verif.SpecRepeat
import Verif.Lemmas.Index
/-!
# What the target matcher contains, and what it finds
-/
namespace Smdiff
open Spec

theorem slot32_eq (k : Nat) (h : UInt32) : bucketIdx h.toUInt64 (32 - k) (2 ^ k - 1) = slot32 k h := by
  unfold bucketIdx slot32
  rw [Nat.shiftRight_eq_div_pow, Nat.and_two_pow_sub_one_eq_mod, UInt32.toNat_toUInt64]

theorem toUInt64_inj32 {a b : UInt32} : a.toUInt64 = b.toUInt64 ↔ a = b := by
  constructor
  · intro h
    have := congrArg UInt64.toNat h
    rw [UInt32.toNat_toUInt64, UInt32.toNat_toUInt64] at this
    exact UInt32.toNat_inj.1 this
  · rintro rfl; rfl

/-- The table and the chain of the target matcher after entering `hist` (newest first). -/
structure Recorded (k : Nat) (hist : List (UInt32 × Nat)) (m : TrgtMatcher) : Prop where
  small : k ≤ 32
  mask : m.table.mask = 2 ^ k - 1
  shift : m.table.shift = 32 - k
  size : m.table.buckets.length = 2 ^ k
  desc : hist.Pairwise (fun a b => b.2 < a.2)
  empty : ∀ i b, m.table.buckets[i]? = some b → (∀ e ∈ hist, slot32 k e.1 ≠ i) → b.value = 0
  newest : ∀ newer e older, hist = newer ++ e :: older → (∀ f ∈ newer, slot32 k f.1 ≠ slot32 k e.1) →
    m.table.buckets[slot32 k e.1]? = some ⟨e.1.toUInt64, e.2 + 1⟩
  chain : ChainWf m.chain
  cells : ∀ i b, m.chain.positions[i]? = some b → b.value ≠ 0 →
    ∃ e ∈ hist, e.2 &&& m.chain.mask = i ∧ b.value - 1 < e.2
  ends : ∀ newer e older, hist = newer ++ e :: older → (∀ f ∈ newer, f.2 &&& m.chain.mask ≠ e.2 &&& m.chain.mask) →
    (∀ f ∈ older, slot32 k f.1 ≠ slot32 k e.1) → ∀ b, m.chain.positions[e.2 &&& m.chain.mask]? = some b →
    b.value = 0 ∨ b.value - 1 + m.chain.positions.length ≤ e.2
  links : ∀ newer e mid f older, hist = newer ++ e :: (mid ++ f :: older) →
    (∀ g ∈ newer, g.2 &&& m.chain.mask ≠ e.2 &&& m.chain.mask) →
    slot32 k f.1 = slot32 k e.1 → (∀ g ∈ mid, slot32 k g.1 ≠ slot32 k e.1) →
    ∀ b, m.chain.positions[e.2 &&& m.chain.mask]? = some b → b = ⟨f.1.toUInt64, f.2 + 1⟩

theorem Recorded.wf {k : Nat} {hist : List (UInt32 × Nat)} {m : TrgtMatcher} (h : Recorded k hist m) :
    TableWf 32 m.table := ⟨k, h.small, h.mask, h.shift, h.size⟩

/-- Either no entry belongs into the bucket, or there is a newest one. -/
theorem newest_or (k i : Nat) : ∀ hist : List (UInt32 × Nat), (∀ e ∈ hist, slot32 k e.1 ≠ i) ∨
    ∃ newer e older, hist = newer ++ e :: older ∧ slot32 k e.1 = i ∧ ∀ f ∈ newer, slot32 k f.1 ≠ i := by
  intro hist
  induction hist with
  | nil => left; simp
  | cons e es ih =>
    by_cases h : slot32 k e.1 = i
    · exact Or.inr ⟨[], e, es, rfl, h, by simp⟩
    · rcases ih with h1 | ⟨n, f, o, h1, h2, h3⟩
      · left
        intro f hf
        rcases List.mem_cons.1 hf with rfl | hf
        · exact h
        · exact h1 f hf
      · refine Or.inr ⟨e :: n, f, o, by rw [h1]; rfl, h2, ?_⟩
        intro g hg
        rcases List.mem_cons.1 hg with rfl | hg
        · exact h
        · exact h3 g hg

theorem recorded_store {k : Nat} {hist : List (UInt32 × Nat)} {m m' : TrgtMatcher} {h : UInt32} {p : Nat}
    (hr : Recorded k hist m) (hp : ∀ e ∈ hist, e.2 < p) (e : m.store h p = .ok m') :
    Recorded k ((h, p) :: hist) m' ∧ m'.chain.positions.length = m.chain.positions.length ∧
      m'.compressEarlyExit = m.compressEarlyExit ∧ m'.chainCheck = m.chainCheck := by
  have hlt := bucketIdx_lt hr.wf (toUInt64_lt32 h)
  unfold TrgtMatcher.store at e
  rw [Outcome.bind_eq_ok] at e
  obtain ⟨⟨r, t⟩, e1, e⟩ := e
  simp only [HashTable.insert, Outcome.bind_eq_ok] at e1
  obtain ⟨b0, hb0, e1⟩ := e1
  cases e1
  rw [idx_eq_ok] at hb0
  rw [hr.mask, hr.shift, slot32_eq] at hb0 e hlt
  have hdesc : ((h, p) :: hist).Pairwise (fun a b => b.2 < a.2) :=
    List.pairwise_cons.2 ⟨hp, hr.desc⟩
  have hsize : (m.table.buckets.set (slot32 k h) ⟨h.toUInt64, p + 1⟩).length = 2 ^ k := by simp [hr.size]
  have hempty : ∀ i b, (m.table.buckets.set (slot32 k h) ⟨h.toUInt64, p + 1⟩)[i]? = some b →
      (∀ e ∈ (h, p) :: hist, slot32 k e.1 ≠ i) → b.value = 0 := by
    intro i b hb hno
    rw [List.getElem?_set_ne (hno (h, p) (by simp))] at hb
    exact hr.empty i b hb (fun e he => hno e (by simp [he]))
  have hnewest : ∀ newer e older, (h, p) :: hist = newer ++ e :: older → (∀ f ∈ newer, slot32 k f.1 ≠ slot32 k e.1) →
      (m.table.buckets.set (slot32 k h) ⟨h.toUInt64, p + 1⟩)[slot32 k e.1]? = some ⟨e.1.toUInt64, e.2 + 1⟩ := by
    intro newer e older hh hn
    cases newer with
    | nil =>
      simp only [List.nil_append, List.cons.injEq] at hh
      obtain ⟨rfl, -⟩ := hh
      rw [List.getElem?_set_self hlt]
    | cons g newer =>
      simp only [List.cons_append, List.cons.injEq] at hh
      obtain ⟨rfl, hh⟩ := hh
      rw [List.getElem?_set_ne (hn (h, p) (by simp))]
      exact hr.newest _ _ _ hh (fun f hf => hn f (by simp [hf]))
  -- the cells of the chain that are not overwritten
  have old_ends : ∀ (c : ChainList), c.mask = m.chain.mask → c.positions.length = m.chain.positions.length →
      (∀ i, i ≠ p &&& m.chain.mask → c.positions[i]? = m.chain.positions[i]?) →
      ∀ newer e older, (h, p) :: hist = (h, p) :: newer ++ e :: older →
      (∀ f ∈ (h, p) :: newer, f.2 &&& c.mask ≠ e.2 &&& c.mask) →
      (∀ f ∈ older, slot32 k f.1 ≠ slot32 k e.1) → ∀ b, c.positions[e.2 &&& c.mask]? = some b →
      b.value = 0 ∨ b.value - 1 + c.positions.length ≤ e.2 := by
    intro c hm hl hsame newer e older hh hn ho b hb
    simp only [List.cons_append, List.cons.injEq, true_and] at hh
    have h1 := hn (h, p) (by simp)
    rw [hm] at hb h1
    rw [hsame _ (fun h => h1 h.symm)] at hb
    rw [hl]
    exact hr.ends newer e older hh (fun f hf => by have := hn f (by simp [hf]); rwa [hm] at this) ho b hb
  have old_links : ∀ (c : ChainList), c.mask = m.chain.mask →
      (∀ i, i ≠ p &&& m.chain.mask → c.positions[i]? = m.chain.positions[i]?) →
      ∀ newer e mid f older, (h, p) :: hist = (h, p) :: newer ++ e :: (mid ++ f :: older) →
      (∀ g ∈ (h, p) :: newer, g.2 &&& c.mask ≠ e.2 &&& c.mask) →
      slot32 k f.1 = slot32 k e.1 → (∀ g ∈ mid, slot32 k g.1 ≠ slot32 k e.1) →
      ∀ b, c.positions[e.2 &&& c.mask]? = some b → b = ⟨f.1.toUInt64, f.2 + 1⟩ := by
    intro c hm hsame newer e mid f older hh hn hs ho b hb
    simp only [List.cons_append, List.cons.injEq, true_and] at hh
    have h1 := hn (h, p) (by simp)
    rw [hm] at hb h1
    rw [hsame _ (fun h => h1 h.symm)] at hb
    exact hr.links newer e mid f older hh (fun f hf => by have := hn f (by simp [hf]); rwa [hm] at this) hs ho b hb
  rcases newest_or k (slot32 k h) hist with hno | ⟨newer, e0, older, hh0, hs0, hn0⟩
  · -- the bucket was empty
    have hv := hr.empty _ _ hb0 hno
    rw [show b0.setResult h.toUInt64 = .fresh by unfold BucketValue.setResult; rw [if_pos hv]] at e
    cases e
    refine ⟨⟨hr.small, rfl, rfl, hsize, hdesc, hempty, hnewest, hr.chain, ?_, ?_, ?_⟩, rfl, rfl, rfl⟩
    · intro i b hb hv
      obtain ⟨e, h1, h2⟩ := hr.cells i b hb hv
      exact ⟨e, by simp [h1], h2⟩
    · intro newer e older hh hn ho b hb
      cases newer with
      | nil =>
        simp only [List.nil_append, List.cons.injEq] at hh
        obtain ⟨rfl, rfl⟩ := hh
        by_cases hv : b.value = 0
        · exact Or.inl hv
        · obtain ⟨f, h1, h2, h3⟩ := hr.cells _ b hb hv
          have hne : m.chain.positions.isEmpty = false := by
            cases hq : m.chain.positions with
            | nil => simp only [hq] at hb; simp at hb
            | cons _ _ => rfl
          have := chain_and_sep hr.chain hne (hp f h1) h2.symm
          dsimp only
          right; omega
      | cons g newer =>
        simp only [List.cons_append, List.cons.injEq] at hh
        obtain ⟨rfl, hh⟩ := hh
        exact old_ends m.chain rfl rfl (fun _ _ => rfl) newer e older (by rw [hh]; rfl) hn ho b hb
    · intro newer e mid f older hh hn hs ho b hb
      cases newer with
      | nil =>
        simp only [List.nil_append, List.cons.injEq] at hh
        obtain ⟨rfl, rfl⟩ := hh
        exact absurd hs (hno f (by simp))
      | cons g newer =>
        simp only [List.cons_append, List.cons.injEq] at hh
        obtain ⟨rfl, hh⟩ := hh
        exact old_links m.chain rfl (fun _ _ => rfl) newer e mid f older (by rw [hh]; rfl) hn hs ho b hb
  · -- the newest entry of the bucket becomes the first link
    have hb1 := hr.newest newer e0 older hh0 (by rw [hs0]; exact hn0)
    rw [hs0, hb0] at hb1
    cases hb1
    have e' : (m.chain.insert e0.1.toUInt64 p e0.2 >>= fun c => (Outcome.ok { m with
        table := ⟨32 - k, 2 ^ k - 1, m.table.buckets.set (slot32 k h) ⟨h.toUInt64, p + 1⟩⟩,
        chain := c } : Outcome TrgtMatcher)) = .ok m' := by
      rw [← e]
      unfold BucketValue.setResult
      rw [if_neg (by simp)]
      by_cases hx : e0.1.toUInt64 = h.toUInt64
      · rw [if_pos hx, hx]; rfl
      · rw [if_neg hx]; rfl
    clear e
    rw [Outcome.bind_eq_ok] at e'
    obtain ⟨c, ec, e'⟩ := e'
    cases e'
    have hpe : e0.2 < p := hp e0 (by rw [hh0]; simp)
    unfold ChainList.insert at ec
    by_cases hne : m.chain.positions.isEmpty = true
    · rw [if_pos hne] at ec
      cases ec
      have hnil : m.chain.positions = [] := by simpa using hne
      refine ⟨⟨hr.small, rfl, rfl, hsize, hdesc, hempty, hnewest, hr.chain, ?_, ?_, ?_⟩, rfl, rfl, rfl⟩
      · intro i b hb; simp only [hnil] at hb; simp at hb
      · intro newer e older _ _ _ b hb; simp only [hnil] at hb; simp at hb
      · intro newer e mid f older _ _ _ _ b hb; simp only [hnil] at hb; simp at hb
    · rw [if_neg hne] at ec
      have hne : m.chain.positions.isEmpty = false := by simpa using hne
      have hltc := chain_and_lt hr.chain hne p
      rw [Outcome.bind_eq_ok] at ec
      obtain ⟨_, -, ec⟩ := ec
      cases ec
      have hsame : ∀ i, i ≠ p &&& m.chain.mask →
          (m.chain.positions.set (p &&& m.chain.mask) ⟨e0.1.toUInt64, e0.2 + 1⟩)[i]? = m.chain.positions[i]? :=
        fun i hi => List.getElem?_set_ne (Ne.symm hi)
      refine ⟨⟨hr.small, rfl, rfl, hsize, hdesc, hempty, hnewest, ?_, ?_, ?_, ?_⟩, by simp, rfl, rfl⟩
      · rcases hr.chain with h0 | ⟨k, hl, hm⟩
        · rw [h0] at hne; simp at hne
        · exact Or.inr ⟨k, by simp [hl], hm⟩
      · intro i b hb hv
        simp only [List.getElem?_set] at hb
        split at hb
        · next he =>
          cases hb
          exact ⟨(h, p), by simp, he, by simpa using hpe⟩
        · obtain ⟨e, h1, h2⟩ := hr.cells i b hb hv
          exact ⟨e, by simp [h1], h2⟩
      · intro newer' e older' hh hn ho b hb
        cases newer' with
        | nil =>
          simp only [List.nil_append, List.cons.injEq] at hh
          obtain ⟨rfl, rfl⟩ := hh
          exact absurd hs0 (ho e0 (by rw [hh0]; simp))
        | cons g newer' =>
          simp only [List.cons_append, List.cons.injEq] at hh
          obtain ⟨rfl, hh⟩ := hh
          exact old_ends { m.chain with positions := m.chain.positions.set (p &&& m.chain.mask) ⟨e0.1.toUInt64, e0.2 + 1⟩ }
            rfl (by simp) hsame newer' e older' (by rw [hh]; rfl) hn ho b hb
      · intro newer' e mid f older' hh hn hs ho b hb
        cases newer' with
        | nil =>
          simp only [List.nil_append, List.cons.injEq] at hh
          obtain ⟨rfl, hh⟩ := hh
          dsimp only at hb
          rw [List.getElem?_set_self hltc] at hb
          cases hb
          -- both are the newest of the bucket
          have key : ∀ (n1 n2 : List (UInt32 × Nat)) (a1 a2 : UInt32 × Nat) (o1 o2 : List (UInt32 × Nat)),
              n1 ++ a1 :: o1 = n2 ++ a2 :: o2 → slot32 k a1.1 = slot32 k h → slot32 k a2.1 = slot32 k h →
              (∀ g ∈ n1, slot32 k g.1 ≠ slot32 k h) → (∀ g ∈ n2, slot32 k g.1 ≠ slot32 k h) → a1 = a2 := by
            intro n1
            induction n1 with
            | nil =>
              intro n2 a1 a2 o1 o2 h1 h2 h3 h4 h5
              cases n2 with
              | nil => simp only [List.nil_append, List.cons.injEq] at h1; exact h1.1
              | cons g n2 =>
                simp only [List.nil_append, List.cons_append, List.cons.injEq] at h1
                exact absurd (h1.1 ▸ h2) (h5 g (by simp))
            | cons g n1 ih =>
              intro n2 a1 a2 o1 o2 h1 h2 h3 h4 h5
              cases n2 with
              | nil =>
                simp only [List.nil_append, List.cons_append, List.cons.injEq] at h1
                exact absurd (h1.1 ▸ h3) (h4 g (by simp))
              | cons g' n2 =>
                simp only [List.cons_append, List.cons.injEq] at h1
                exact ih n2 a1 a2 o1 o2 h1.2 h2 h3 (fun x hx => h4 x (by simp [hx])) (fun x hx => h5 x (by simp [hx]))
          have := key newer mid e0 f older older' (by rw [← hh0, hh]) hs0 hs hn0 ho
          rw [this]
        | cons g newer' =>
          simp only [List.cons_append, List.cons.injEq] at hh
          obtain ⟨rfl, hh⟩ := hh
          exact old_links { m.chain with positions := m.chain.positions.set (p &&& m.chain.mask) ⟨e0.1.toUInt64, e0.2 + 1⟩ }
            rfl hsame newer' e mid f older' (by rw [hh]; rfl) hn hs ho b hb

/-! ## The walk -/

theorem filter_old {cap cur : Nat} {h : UInt32} {older : List (UInt32 × Nat)} (ho : ∀ f ∈ older, f.2 + cap ≤ cur) :
    older.filter (fun f => f.1 == h && decide (cur < f.2 + cap)) = [] := by
  rw [List.filter_eq_nil_iff]
  intro f hf
  have := ho f hf
  have : ¬ cur < f.2 + cap := by omega
  simp [this]

theorem recorded_next {k : Nat} {hist : List (UInt32 × Nat)} {m : TrgtMatcher} {cur : Nat} {h : UInt32} {dbg : Bool}
    (hr : Recorded k hist m) (hc : ∀ e ∈ hist, e.2 < cur) : ∀ (n : Nat) (newer : List (UInt32 × Nat)) (e : UInt32 × Nat)
      (older : List (UInt32 × Nat)), older.length = n → hist = newer ++ e :: older → slot32 k e.1 = slot32 k h →
      ∀ fuel, e.2 < fuel → m.chain.next dbg cur h.toUInt64 fuel e.2 = .ok
        ((older.filter (fun f => f.1 == h && decide (cur < f.2 + m.chain.positions.length))).head?.map (·.2)) := by
  intro n
  induction n using Nat.strongRecOn with
  | ind n ih =>
    intro newer e older hn hh hs fuel hf
    obtain ⟨fuel, rfl⟩ : ∃ f, fuel = f + 1 := ⟨fuel - 1, by omega⟩
    have hdesc := hr.desc
    rw [hh, List.pairwise_append, List.pairwise_cons] at hdesc
    obtain ⟨-, ⟨hold, hpo⟩, hnew⟩ := hdesc
    have hec : e.2 < cur := hc e (by rw [hh]; simp)
    rw [next_succ]
    by_cases hne : m.chain.positions.isEmpty = true
    · have hnil : m.chain.positions = [] := by simpa using hne
      rw [filter_old (by
        intro f hf
        have := hold f hf
        rw [hnil]; simp; omega)]
      unfold nextBody ChainList.getPrevPos
      rw [if_pos hne]
      rfl
    · have hne : m.chain.positions.isEmpty = false := by simpa using hne
      have hlt := chain_and_lt hr.chain hne e.2
      obtain ⟨b, hb⟩ : ∃ b, m.chain.positions[e.2 &&& m.chain.mask]? = some b := ⟨_, List.getElem?_eq_getElem hlt⟩
      have hg : m.chain.getPrevPos e.2 = .ok (if b.value = 0 then none else some b) := by
        unfold ChainList.getPrevPos
        rw [if_neg (by simp [hne]), show idx m.chain.positions (e.2 &&& m.chain.mask) = .ok b from idx_eq_ok.2 hb]
        simp only [Outcome.ok_bind]
        by_cases h0 : b.value = 0
        · rw [if_pos h0, if_pos h0]; rfl
        · rw [if_neg h0, if_neg h0]; rfl
      -- the ways to stop
      have stop : (b.value = 0 ∨ e.2 < b.value - 1 ∨ b.value - 1 + m.chain.positions.length ≤ cur) →
          nextBody dbg m.chain cur h.toUInt64 e.2 = .ok (.inl none) := by
        intro hx
        unfold nextBody
        rw [hg]
        by_cases h0 : b.value = 0
        · rw [if_pos h0]; rfl
        · rw [if_neg h0]
          simp only [Outcome.pure_eq, Outcome.ok_bind]
          by_cases h1 : b.value - 1 > e.2
          · rw [if_pos h1]
          · rw [if_neg h1, if_neg (by omega), if_pos (by omega)]
      by_cases hover : ∃ g ∈ newer, g.2 &&& m.chain.mask = e.2 &&& m.chain.mask
      · obtain ⟨g, hg, hgm⟩ := hover
        have h1 := chain_and_sep hr.chain hne (hnew g hg e (by simp)) hgm
        have h2 : g.2 < cur := hc g (by rw [hh]; simp [hg])
        rw [stop (by omega), filter_old (fun f hf => by have := hold f hf; omega)]
        rfl
      · have hover : ∀ g ∈ newer, g.2 &&& m.chain.mask ≠ e.2 &&& m.chain.mask :=
          fun g hg h => hover ⟨g, hg, h⟩
        rcases newest_or k (slot32 k e.1) older with hno | ⟨mid, f, older', ho, hsf, hmid⟩
        · rw [stop (by rcases hr.ends newer e older hh hover hno b hb with h | h <;> omega)]
          rw [show older.filter (fun f => f.1 == h && decide (cur < f.2 + m.chain.positions.length)) = [] by
            rw [List.filter_eq_nil_iff]
            intro f hf
            have : f.1 ≠ h := by
              rintro rfl
              exact hno f hf hs.symm
            simp [this]]
          rfl
        · have hb' := hr.links newer e mid f older' (by rw [hh, ho]) hover hsf hmid b hb
          have hfe : f.2 < e.2 := hold f (by rw [ho]; simp)
          have hmf : mid.filter (fun f => f.1 == h && decide (cur < f.2 + m.chain.positions.length)) = [] := by
            rw [List.filter_eq_nil_iff]
            intro g hg
            have : g.1 ≠ h := by
              rintro rfl
              exact hmid g hg hs.symm
            simp [this]
          rw [ho, List.pairwise_append, List.pairwise_cons] at hpo
          by_cases hfar : f.2 + m.chain.positions.length ≤ cur
          · rw [stop (by rw [hb']; simp; omega), ho, List.filter_append, hmf, List.nil_append, filter_old]
            · rfl
            · intro g hg
              rcases List.mem_cons.1 hg with rfl | hg
              · exact hfar
              · have := hpo.2.1.1 g hg
                omega
          · unfold nextBody
            rw [hg, hb']
            rw [if_neg (by simp)]
            simp only [Outcome.pure_eq, Outcome.ok_bind, Nat.add_sub_cancel]
            rw [if_neg (by omega), if_neg (by omega), if_neg (by omega)]
            rw [ho, List.filter_append, hmf, List.nil_append]
            by_cases hfh : f.1 = h
            · rw [if_pos (by rw [hfh]), List.filter_cons_of_pos (by simp [hfh]; omega)]
              rfl
            · rw [if_neg (by rw [toUInt64_inj32]; exact hfh), List.filter_cons_of_neg (by simp [hfh])]
              exact ih older'.length (by rw [← hn, ho]; simp; omega) (newer ++ e :: mid) f older' rfl
                (by rw [hh, ho]; simp) (by rw [hsf, hs]) fuel (by omega)

/-! ## The choice -/

/-- The length of the repetition of `p`, if the four bytes are the same. -/
def repLen (trgt : Bytes) (cur p : Nat) : Nat :=
  countWhile (fun i => byteEq trgt (p + 4 + i) trgt (cur + 4 + i)) 0 (min (cur - (p + 4)) (trgt.length - (cur + 4))) + 4

theorem candidate_eq {trgt : Bytes} {cur p : Nat} (h1 : p + 4 < cur) (h2 : cur + 4 ≤ trgt.length) :
    trgtCandidate trgt cur p = .ok (if window trgt p 4 = window trgt cur 4 then some (repLen trgt cur p) else none) := by
  unfold trgtCandidate
  rw [slice_window (by omega), slice_window h2]
  simp only [Outcome.ok_bind]
  by_cases h : window trgt p 4 = window trgt cur 4
  · rw [if_neg (by simp [h]), if_pos h]; rfl
  · rw [if_pos (by simp [h]), if_neg h]; rfl

/-- The loop over a list of candidates. -/
def pick (good : Nat) (len : Nat → Nat) : List Nat → Option (Nat × Nat) → Option (Nat × Nat)
  | [], best => best
  | p :: ps, best =>
    if len p > bestLen best then if len p ≥ good then some (p, len p) else pick good len ps (some (p, len p))
    else pick good len ps best

theorem walk_pick {k : Nat} {hist : List (UInt32 × Nat)} {m : TrgtMatcher} {trgt : Bytes} {dbg : Bool}
    (hr : Recorded k hist m) (hc : ∀ e ∈ hist, e.2 < m.fwdPos) (h4 : m.fwdPos + 4 ≤ trgt.length) :
    ∀ (n : Nat) (newer : List (UInt32 × Nat)) (e : UInt32 × Nat)
      (older : List (UInt32 × Nat)), older.length = n → hist = newer ++ e :: older → slot32 k e.1 = slot32 k m.fwdHash →
      ∀ fuel, e.2 < fuel → ∀ chain best, findTrgtLoop dbg m trgt fuel none e.2 chain best = .ok
        (pick m.compressEarlyExit (repLen trgt m.fwdPos) ((repeatsAt trgt m.fwdPos
          ((older.filter (fun f => f.1 == m.fwdHash && decide (m.fwdPos < f.2 + m.chain.positions.length))).map (·.2))).take
            chain) best) := by
  intro n
  induction n using Nat.strongRecOn with
  | ind n ih =>
    intro newer e older hn hh hs fuel hf chain best
    obtain ⟨fuel, rfl⟩ : ∃ f, fuel = f + 1 := ⟨fuel - 1, by omega⟩
    rw [walk_succ]
    by_cases hch : chain = 0
    · rw [if_pos hch, hch]; rfl
    rw [if_neg hch]
    unfold walkNext
    rw [recorded_next hr hc n newer e older hn hh hs (fuel + 1) hf]
    simp only [Outcome.ok_bind]
    generalize hF : older.filter (fun f => f.1 == m.fwdHash && decide (m.fwdPos < f.2 + m.chain.positions.length)) = F
    cases F with
    | nil => simp only [List.head?_nil, Option.map_none, List.map_nil]; unfold repeatsAt; simp [pick]
    | cons f rest =>
      simp only [List.head?_cons, Option.map_some, List.map_cons]
      -- split the history at `f`
      obtain ⟨mid, older', ho, hmid, hrest⟩ : ∃ mid older', older = mid ++ f :: older' ∧ True ∧
          older'.filter (fun f => f.1 == m.fwdHash && decide (m.fwdPos < f.2 + m.chain.positions.length)) = rest := by
        obtain ⟨l1, l2, h1, h2, h3, h4⟩ := List.filter_eq_cons_iff.1 hF
        exact ⟨l1, l2, h1, trivial, h4⟩
      have hfm : f ∈ older.filter (fun f => f.1 == m.fwdHash && decide (m.fwdPos < f.2 + m.chain.positions.length)) := by
        rw [hF]; simp
      have hfh : f.1 = m.fwdHash := by
        have := (List.mem_filter.1 hfm).2
        simp only [Bool.and_eq_true, beq_iff_eq] at this
        exact this.1
      have hdesc := hr.desc
      rw [hh, List.pairwise_append, List.pairwise_cons] at hdesc
      have hfe : f.2 < e.2 := hdesc.2.1.1 f (by rw [ho]; simp)
      have ih' := fun chain best => ih older'.length (by rw [← hn, ho]; simp; omega) (newer ++ e :: mid) f older' rfl
        (by rw [hh, ho]; simp) (by rw [hfh]) fuel (by omega) chain best
      rw [hrest] at ih'
      unfold walkBody
      by_cases h1 : f.2 + 4 < m.fwdPos
      · rw [if_pos h1, candidate_eq h1 h4]
        simp only [Outcome.ok_bind]
        by_cases h2 : window trgt f.2 4 = window trgt m.fwdPos 4
        · rw [if_pos h2]
          simp only
          have hrep : repeatsAt trgt m.fwdPos (f.2 :: rest.map (·.2)) = f.2 :: repeatsAt trgt m.fwdPos (rest.map (·.2)) := by
            unfold repeatsAt
            rw [List.filter_cons_of_pos (by simp [h1, h2])]
          rw [hrep]
          obtain ⟨c, rfl⟩ : ∃ c, chain = c + 1 := ⟨chain - 1, by omega⟩
          rw [List.take_succ_cons, pick]
          by_cases h3 : repLen trgt m.fwdPos f.2 > bestLen best
          · rw [if_pos h3, if_pos h3]
            by_cases h5 : repLen trgt m.fwdPos f.2 ≥ m.compressEarlyExit
            · rw [if_pos h5, if_pos h5]; rfl
            · rw [if_neg h5, if_neg h5]
              exact ih' c _
          · rw [if_neg h3, if_neg h3]
            exact ih' c _
        · rw [if_neg h2]
          simp only [Outcome.pure_eq, Outcome.ok_bind]
          rw [ih']
          unfold repeatsAt
          rw [List.filter_cons_of_neg (by simp [h2])]
      · rw [if_neg h1]
        simp only [Outcome.pure_eq, Outcome.ok_bind]
        rw [ih']
        unfold repeatsAt
        rw [List.filter_cons_of_neg (by simp [h1])]

theorem repLen_repeats {trgt : Bytes} {cur p : Nat} (h1 : p + 4 < cur) (h2 : cur + 4 ≤ trgt.length)
    (hw : window trgt p 4 = window trgt cur 4) : Repeats trgt p cur (repLen trgt cur p) ∧ 4 ≤ repLen trgt cur p := by
  unfold repLen
  have hq : ∀ i, i < 4 → trgt[p + i]? = trgt[cur + i]? := by
    intro i hi
    have := congrArg (·[i]?) hw
    simpa [window, List.getElem?_take_of_lt hi, List.getElem?_drop] using this
  have hl := countWhile_le (fun i => byteEq trgt (p + 4 + i) trgt (cur + 4 + i)) (min (cur - (p + 4)) (trgt.length - (cur + 4))) 0
  have ha := countWhile_all (fun i => byteEq trgt (p + 4 + i) trgt (cur + 4 + i)) (min (cur - (p + 4)) (trgt.length - (cur + 4))) 0
  have hst := countWhile_stops (fun i => byteEq trgt (p + 4 + i) trgt (cur + 4 + i)) (min (cur - (p + 4)) (trgt.length - (cur + 4))) 0
  generalize countWhile (fun i => byteEq trgt (p + 4 + i) trgt (cur + 4 + i)) 0
    (min (cur - (p + 4)) (trgt.length - (cur + 4))) = n at *
  simp only [Nat.zero_add] at ha hst
  refine ⟨⟨by omega, by omega, fun i hi => ?_, ?_⟩, by omega⟩
  · by_cases h : i < 4
    · exact hq i h
    · have := ha (i - 4) (by omega)
      rw [byteEq_iff (by omega) (by omega)] at this
      rwa [show p + 4 + (i - 4) = p + i by omega, show cur + 4 + (i - 4) = cur + i by omega] at this
  · rcases hst with h | h
    · omega
    · by_cases h3 : cur + 4 + n < trgt.length
      · right; right
        intro he
        rw [show p + (n + 4) = p + 4 + n by omega, show cur + (n + 4) = cur + 4 + n by omega,
          ← byteEq_iff (by omega) h3] at he
        rw [he] at h
        cases h
      · omega

theorem repeats_unique {trgt : Bytes} {p cur a b : Nat} (ha : Repeats trgt p cur a) (hb : Repeats trgt p cur b) : a = b := by
  have key : ∀ {a b}, Repeats trgt p cur a → Repeats trgt p cur b → ¬ a < b := by
    intro a b ha hb h
    have h1 := hb.before
    have h2 := hb.inside
    rcases ha.stops with h3 | h3 | h3
    · omega
    · omega
    · exact h3 (hb.same a h)
  have h1 := key ha hb
  have h2 := key hb ha
  omega

theorem pick_spec (good : Nat) (len : Nat → Nat) : ∀ (l : List Nat) (best : Option (Nat × Nat)),
    (best = none ∨ bestLen best < good) → (∀ p ∈ l, 0 < len p) →
    (pick good len l best = best ∧ ∀ p ∈ l, len p ≤ bestLen best) ∨
    ∃ before p after, l = before ++ p :: after ∧ pick good len l best = some (p, len p) ∧ bestLen best < len p ∧
      (∀ q ∈ before, len q < len p ∧ len q < good) ∧ (good ≤ len p ∨ ∀ q ∈ after, len q ≤ len p) := by
  intro l
  induction l with
  | nil => intro best _ _; left; exact ⟨rfl, by simp⟩
  | cons p ps ih =>
    intro best hb hp
    rw [pick]
    have hps : ∀ q ∈ ps, 0 < len q := fun q hq => hp q (by simp [hq])
    have hpp := hp p (by simp)
    by_cases h1 : len p > bestLen best
    · rw [if_pos h1]
      by_cases h2 : len p ≥ good
      · rw [if_pos h2]
        exact Or.inr ⟨[], p, ps, rfl, rfl, h1, by simp, Or.inl h2⟩
      · rw [if_neg h2]
        rcases ih (some (p, len p)) (Or.inr (by simp only [bestLen]; omega)) hps with ⟨h3, h4⟩ | ⟨bf, q, af, h3, h4, h5, h6, h7⟩
        · exact Or.inr ⟨[], p, ps, rfl, h3, h1, by simp, Or.inr h4⟩
        · simp only [bestLen] at h5
          refine Or.inr ⟨p :: bf, q, af, by rw [h3]; rfl, h4, by omega, ?_, h7⟩
          intro r hr
          rcases List.mem_cons.1 hr with rfl | hr
          · omega
          · exact h6 r hr
    · rw [if_neg h1]
      have hg : bestLen best < good := by
        rcases hb with rfl | h
        · simp only [bestLen] at h1; omega
        · exact h
      rcases ih best hb hps with ⟨h3, h4⟩ | ⟨bf, q, af, h3, h4, h5, h6, h7⟩
      · refine Or.inl ⟨h3, ?_⟩
        intro r hr
        rcases List.mem_cons.1 hr with rfl | hr
        · omega
        · exact h4 r hr
      · refine Or.inr ⟨p :: bf, q, af, by rw [h3]; rfl, h4, h5, ?_, h7⟩
        intro r hr
        rcases List.mem_cons.1 hr with rfl | hr
        · omega
        · exact h6 r hr

theorem pick_chosen {trgt : Bytes} {cur good limit : Nat} {ps : List Nat} (h4 : cur + 4 ≤ trgt.length) :
    Chosen trgt cur good limit (repeatsAt trgt cur ps)
      (pick good (repLen trgt cur) ((repeatsAt trgt cur ps).take limit) none) := by
  have hall : ∀ p ∈ (repeatsAt trgt cur ps).take limit, Repeats trgt p cur (repLen trgt cur p) ∧ 4 ≤ repLen trgt cur p := by
    intro p hp
    have := (List.mem_filter.1 (List.mem_of_mem_take hp)).2
    simp only [Bool.and_eq_true, decide_eq_true_eq, beq_iff_eq] at this
    exact repLen_repeats this.1 h4 this.2
  rcases pick_spec good (repLen trgt cur) ((repeatsAt trgt cur ps).take limit) none (Or.inl rfl)
    (fun p hp => by have := (hall p hp).2; omega) with ⟨h1, h2⟩ | ⟨bf, p, af, h1, h2, h3, h5, h6⟩
  · rw [h1]
    refine .nothing (List.eq_nil_iff_forall_not_mem.2 fun p hp => ?_)
    have := h2 p hp
    have := (hall p hp).2
    simp only [bestLen] at *
    omega
  · rw [h2]
    have hp := hall p (by rw [h1]; simp)
    refine .found bf af p _ h1 hp.1 hp.2 (fun q hq l hl => ?_) ?_
    · rw [repeats_unique hl (hall q (by rw [h1]; simp [hq])).1]
      exact h5 q hq
    · rcases h6 with h6 | h6
      · exact Or.inl h6
      · right
        intro q hq l hl
        rw [repeats_unique hl (hall q (by rw [h1]; simp [hq])).1]
        exact h6 q hq

/-- How many candidates are checked, smdiff-encoder/src/trgt_matcher.rs:44. -/
def checkLimit (chainCheck minMatch : Nat) : Nat := if minMatch > 4 then max (chainCheck / 4) 1 else chainCheck

theorem recorded_find {k : Nat} {hist : List (UInt32 × Nat)} {m : TrgtMatcher} {trgt : Bytes} {dbg : Bool} {fuel minMatch : Nat}
    (hr : Recorded k hist m) (hc : ∀ e ∈ hist, e.2 < m.fwdPos) (h4 : m.fwdPos + 4 ≤ trgt.length) (hf : m.fwdPos < fuel) :
    ∃ r, m.findBest dbg fuel trgt minMatch = .ok r ∧
      Chosen trgt m.fwdPos m.compressEarlyExit (checkLimit m.chainCheck minMatch)
        (repeatsAt trgt m.fwdPos (considered k m.chain.positions.length m.fwdPos m.fwdHash hist)) r := by
  have hlt := bucketIdx_lt hr.wf (toUInt64_lt32 m.fwdHash)
  rw [hr.mask, hr.shift, slot32_eq] at hlt
  obtain ⟨b, hb⟩ : ∃ b, m.table.buckets[slot32 k m.fwdHash]? = some b := ⟨_, List.getElem?_eq_getElem hlt⟩
  have hg : m.table.get m.fwdHash.toUInt64 = .ok (b.get m.fwdHash.toUInt64) := by
    unfold HashTable.get
    rw [hr.mask, hr.shift, slot32_eq, idx_eq_ok.2 hb]
    rfl
  unfold TrgtMatcher.findBest
  rw [hg]
  simp only [Outcome.ok_bind]
  have none_case : b.get m.fwdHash.toUInt64 = none → considered k m.chain.positions.length m.fwdPos m.fwdHash hist = [] →
      ∃ r, (match b.get m.fwdHash.toUInt64 with
        | none => (pure none : Outcome (Option (Nat × Nat)))
        | some tablePos => findTrgtLoop dbg m trgt fuel (some tablePos) tablePos
            (if minMatch > 4 then max (m.chainCheck / 4) 1 else m.chainCheck) none) = .ok r ∧
      Chosen trgt m.fwdPos m.compressEarlyExit (checkLimit m.chainCheck minMatch)
        (repeatsAt trgt m.fwdPos (considered k m.chain.positions.length m.fwdPos m.fwdHash hist)) r := by
    intro h1 h2
    rw [h1, h2]
    exact ⟨none, rfl, .nothing (by simp [repeatsAt])⟩
  rcases newest_or k (slot32 k m.fwdHash) hist with hno | ⟨newer, e0, older, hh0, hs0, hn0⟩
  · apply none_case
    · unfold BucketValue.get
      rw [if_pos (hr.empty _ _ hb hno)]
    · unfold considered
      rw [List.find?_eq_none.2 (by intro e he; simpa using hno e he)]
  · have hfind : hist.find? (fun e => slot32 k e.1 == slot32 k m.fwdHash) = some e0 := by
      rw [hh0, List.find?_append, List.find?_eq_none.2 (by intro e he; simpa using hn0 e he)]
      simp [hs0]
    have hb1 := hr.newest newer e0 older hh0 (by rw [hs0]; exact hn0)
    rw [hs0, hb] at hb1
    cases hb1
    by_cases hx : e0.1 = m.fwdHash
    · have hcons : considered k m.chain.positions.length m.fwdPos m.fwdHash hist = e0.2 ::
          ((older.filter (fun f => f.1 == m.fwdHash && decide (m.fwdPos < f.2 + m.chain.positions.length))).map (·.2)) := by
        unfold considered
        rw [hfind]
        simp only
        rw [if_pos hx]
        congr 2
        have hdesc := hr.desc
        rw [hh0, List.pairwise_append, List.pairwise_cons] at hdesc
        rw [hh0, List.filter_append, List.filter_cons_of_neg (by simp)]
        rw [List.filter_eq_nil_iff.2 (by
          intro f hf
          have := hdesc.2.2 f hf e0 (by simp)
          have : ¬ f.2 < e0.2 := by omega
          simp [this]), List.nil_append]
        apply List.filter_congr
        intro f hf
        have := hdesc.2.1.1 f hf
        simp [this]
      rw [show BucketValue.get ⟨e0.1.toUInt64, e0.2 + 1⟩ m.fwdHash.toUInt64 = some e0.2 by
        unfold BucketValue.get; rw [if_neg (by simp), if_pos (by rw [hx])]; rfl]
      simp only
      have hec := hc e0 (by rw [hh0]; simp)
      have hlim : (if minMatch > 4 then max (m.chainCheck / 4) 1 else m.chainCheck) = checkLimit m.chainCheck minMatch := rfl
      rw [hlim, hcons]
      generalize checkLimit m.chainCheck minMatch = limit
      refine ⟨_, ?_, pick_chosen h4⟩
      obtain ⟨fuel, rfl⟩ : ∃ f, fuel = f + 1 := ⟨fuel - 1, by omega⟩
      rw [walk_succ]
      by_cases hch : limit = 0
      · rw [if_pos hch, hch]; rfl
      rw [if_neg hch]
      simp only [walkNext, Outcome.ok_bind]
      have hw := fun f (hf : e0.2 < f) chain best => walk_pick (dbg := dbg) (trgt := trgt) hr hc h4 older.length newer e0 older rfl hh0 hs0 f hf chain best
      unfold walkBody
      by_cases h1 : e0.2 + 4 < m.fwdPos
      · rw [if_pos h1, candidate_eq h1 h4]
        simp only [Outcome.ok_bind]
        by_cases h2 : window trgt e0.2 4 = window trgt m.fwdPos 4
        · rw [if_pos h2]
          simp only
          have hrep : ∀ l, repeatsAt trgt m.fwdPos (e0.2 :: l) = e0.2 :: repeatsAt trgt m.fwdPos l := by
            intro l
            unfold repeatsAt
            rw [List.filter_cons_of_pos (by simp [h1, h2])]
          rw [hrep]
          obtain ⟨c, rfl⟩ : ∃ c, limit = c + 1 := ⟨limit - 1, by omega⟩
          rw [List.take_succ_cons, pick]
          by_cases h3 : repLen trgt m.fwdPos e0.2 > bestLen none
          · rw [if_pos h3, if_pos h3]
            by_cases h5 : repLen trgt m.fwdPos e0.2 ≥ m.compressEarlyExit
            · rw [if_pos h5, if_pos h5]; rfl
            · rw [if_neg h5, if_neg h5]
              exact hw _ (by omega) c _
          · rw [if_neg h3, if_neg h3]
            exact hw _ (by omega) c _
        · rw [if_neg h2]
          simp only [Outcome.pure_eq, Outcome.ok_bind]
          rw [hw _ (by omega)]
          congr 3
          unfold repeatsAt
          rw [List.filter_cons_of_neg (by simp [h2])]
      · rw [if_neg h1]
        simp only [Outcome.pure_eq, Outcome.ok_bind]
        rw [hw _ (by omega)]
        congr 3
        unfold repeatsAt
        rw [List.filter_cons_of_neg (by simp [h1])]
    · apply none_case
      · unfold BucketValue.get
        rw [if_neg (by simp), if_neg (by rw [toUInt64_inj32]; exact hx)]
      · unfold considered
        rw [hfind]
        simp only
        rw [if_neg hx]

end Smdiff
