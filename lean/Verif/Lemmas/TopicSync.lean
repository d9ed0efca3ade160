import Verif.Lemmas.Connections

/-!
# Lemmas about topic synchronisation
-/

set_option linter.unusedSectionVars false

namespace Verif.VMap
variable {K V C : Type} [DecidableEq K] [DecidableEq V] [LT C] [DecidableLT C]

/-- Inserting the same value for a list of distinct keys. -/
theorem foldl_insert_const (v : V) (l : List K) (nd : l.Nodup) (m : VMap K V C) (k : K) :
    (l.foldl (fun m t => VMap.insert m t v) m).map.get k =
      (if k ∈ l then some ⟨match m.map.get k with
          | some e => if k ∈ m.modified then e.version else bump e.version
          | none => 1, some v⟩
        else m.map.get k) ∧
    (k ∈ (l.foldl (fun m t => VMap.insert m t v) m).modified ↔ k ∈ l ∨ k ∈ m.modified) ∧
    (l.foldl (fun m t => VMap.insert m t v) m).ident = m.ident := by
  induction l generalizing m with
  | nil => simp
  | cons x l ih =>
    rw [List.nodup_cons] at nd
    obtain ⟨h1, h2, h3⟩ := ih nd.2 (m.insert x v)
    rw [List.foldl_cons]
    refine ⟨?_, ?_, ?_⟩
    · rw [h1]
      simp only [VMap.insert, map_modifyLocal, modified_modifyLocal, FSet.mem_insert, List.mem_cons]
      by_cases hx : x = k
      · subst hx
        simp only [nd.1, if_true, if_false, true_or]
        cases hm : m.map.get x <;> simp
      · have hx' : ¬ k = x := fun e => hx e.symm
        simp only [hx, hx', false_or, if_false]
    · rw [h2]
      simp only [VMap.insert, modified_modifyLocal, FSet.mem_insert, List.mem_cons]
      grind
    · rw [h3]; simp [VMap.insert]

end Verif.VMap

namespace Verif.Conns
variable {U B T H : Type} [DecidableEq U] [DecidableEq B] [DecidableEq T] [DecidableEq H]
  [LT B] [DecidableLT B]

/-- Topics with at least one locally subscribed user. -/
def LocalTopic (s : Conns U B T H) (t : T) : Prop := ∃ u, s.bcUsers.Bwd u t

/-- Only used to state case distinctions in lemmas. -/
noncomputable instance (s : Conns U B T H) (t : T) : Decidable (s.LocalTopic t) :=
  Classical.propDecidable _

/-- Every call except `get_partial_topic_sync` leaves our own topic sync state alone. -/
theorem topicSync_step (s : Conns U B T H) (op : Op U B T H) (hop : op ≠ .partialTopicSync) :
    (s.step op).topicSync = s.topicSync ∧ (s.step op).prev = s.prev := by
  cases op with
  | addUser u h ts => simp [step, addUser]
  | removeUser u => simp [step]
  | addBroker b h => simp [step, addBroker]
  | removeBroker b => simp [step]
  | subscribeUser u ts => exact ⟨rfl, rfl⟩
  | unsubscribeUser u ts => exact ⟨rfl, rfl⟩
  | subscribeBroker b ts => exact ⟨rfl, rfl⟩
  | unsubscribeBroker b ts => exact ⟨rfl, rfl⟩
  | applyUserSync m =>
    obtain ⟨_, _, _, h4, h5, _⟩ := foldl_removeUser_frame { s with direct := (s.direct.merge m).1 }
      Prod.fst (s.direct.merge m).2
    exact ⟨h4, h5⟩
  | applyTopicSync b m =>
    simp only [step, applyTopicSync]
    cases hb : s.brokers.get b with
    | none => simp
    | some e =>
      obtain ⟨_, _, _, _, _, h6, h7, _⟩ := foldl_applyTopicChange_frame
        { s with brokers := s.brokers.insert b { e with topicSync := (e.topicSync.merge m).1 } }
        b (e.topicSync.merge m).2
      exact ⟨h6, h7⟩
  | partialUserSync => exact ⟨rfl, rfl⟩
  | partialTopicSync => exact absurd rfl hop

/-- Sender-side invariant after at most `n` syncs. -/
structure TInv (s : Conns U B T H) (n : Nat) : Prop where
  index : s.IndexInv
  clean : ∀ t, t ∉ s.topicSync.modified
  ent : ∀ t e, s.topicSync.map.get t = some e → e.value ≠ none ∧ e.version ≤ n
  prev : ∀ t, s.topicSync.get t = some .subscribed ↔ t ∈ s.prev

theorem tinv_new (id : B) : TInv (Conns.new id : Conns U B T H) 0 :=
  ⟨⟨RMap.inv_new, RMap.inv_new⟩, by simp [Conns.new, VMap.new], by simp [Conns.new, VMap.new],
    by simp [Conns.new, VMap.new, VMap.get]⟩

theorem TInv.mono {s : Conns U B T H} {n m : Nat} (h : TInv s n) (hnm : n ≤ m) : TInv s m :=
  ⟨h.index, h.clean, fun t e he => ⟨(h.ent t e he).1, Nat.le_trans (h.ent t e he).2 hnm⟩, h.prev⟩

/-- The version a topic gets when it changes. -/
def nextVer (m : TopicSync T) (t : T) : Nat :=
  match m.map.get t with
  | some e => VMap.bump e.version
  | none => 1

/-- Complete description of `get_partial_topic_sync` in a clean state. -/
theorem partialTopicSync_spec (s : Conns U B T H) (hidx : s.IndexInv)
    (hclean : ∀ t, t ∉ s.topicSync.modified) :
    let r := s.getPartialTopicSync
    (∀ t, t ∈ r.1.prev ↔ s.LocalTopic t) ∧
    (∀ t, t ∉ r.1.topicSync.modified) ∧
    r.1.bcUsers = s.bcUsers ∧ r.1.bcBrokers = s.bcBrokers ∧
    (∀ t, r.1.topicSync.map.get t =
      if s.LocalTopic t ∧ t ∉ s.prev then some ⟨nextVer s.topicSync t, some .subscribed⟩
      else if t ∈ s.prev ∧ ¬ s.LocalTopic t then some ⟨nextVer s.topicSync t, some .unsubscribed⟩
      else s.topicSync.map.get t) ∧
    (match r.2 with
     | none => ∀ t, t ∈ s.prev ↔ s.LocalTopic t
     | some m => (¬ ∀ t, t ∈ s.prev ↔ s.LocalTopic t) ∧
        ∀ t, m.map.get t =
          if (s.LocalTopic t ∧ t ∉ s.prev) ∨ (t ∈ s.prev ∧ ¬ s.LocalTopic t)
          then r.1.topicSync.map.get t else none) := by
  have hnow : ∀ t, t ∈ (FSet.ofList s.bcUsers.getValues : FSet T) ↔ s.LocalTopic t := by
    intro t; rw [FSet.mem_ofList, RMap.mem_getValues hidx.1]; rfl
  unfold getPartialTopicSync
  simp only
  generalize (FSet.ofList s.bcUsers.getValues : FSet T) = now at hnow
  have hadd : ∀ t, t ∈ now.diff s.prev ↔ s.LocalTopic t ∧ t ∉ s.prev := by
    intro t; rw [FSet.mem_diff, hnow]
  have hrem : ∀ t, t ∈ s.prev.diff now ↔ t ∈ s.prev ∧ ¬ s.LocalTopic t := by
    intro t; rw [FSet.mem_diff, hnow]
  have ndA := FSet.nodup_diff now s.prev
  have ndR := FSet.nodup_diff s.prev now
  generalize now.diff s.prev = A at *
  generalize s.prev.diff now = R at *
  by_cases hne : (A.isEmpty && R.isEmpty) = true
  · rw [if_pos hne]
    simp only [Bool.and_eq_true, List.isEmpty_iff] at hne
    obtain ⟨rfl, rfl⟩ := hne
    simp only [List.not_mem_nil, false_iff, not_and, Classical.not_not] at hadd hrem
    have heq : ∀ t, t ∈ s.prev ↔ s.LocalTopic t := fun t => ⟨hrem t, hadd t⟩
    refine ⟨heq, hclean, rfl, rfl, ?_, heq⟩
    intro t
    have := heq t
    grind
  · rw [if_neg hne]
    simp only
    have e1 := fun t => VMap.foldl_insert_const SubStatus.subscribed A ndA s.topicSync t
    have e2 := fun t => VMap.foldl_insert_const SubStatus.unsubscribed R ndR
      (A.foldl (fun m t => VMap.insert m t SubStatus.subscribed) s.topicSync) t
    have hmod : ∀ t, t ∈ (R.foldl (fun m t => VMap.insert m t SubStatus.unsubscribed)
        (A.foldl (fun m t => VMap.insert m t SubStatus.subscribed) s.topicSync)).modified ↔
        (s.LocalTopic t ∧ t ∉ s.prev) ∨ (t ∈ s.prev ∧ ¬ s.LocalTopic t) := by
      intro t
      rw [(e2 t).2.1, (e1 t).2.1, hadd, hrem]
      have := hclean t
      grind
    have hmap : ∀ t, (R.foldl (fun m t => VMap.insert m t SubStatus.unsubscribed)
        (A.foldl (fun m t => VMap.insert m t SubStatus.subscribed) s.topicSync)).map.get t =
        if s.LocalTopic t ∧ t ∉ s.prev then some ⟨nextVer s.topicSync t, some .subscribed⟩
        else if t ∈ s.prev ∧ ¬ s.LocalTopic t then some ⟨nextVer s.topicSync t, some .unsubscribed⟩
        else s.topicSync.map.get t := by
      intro t
      rw [(e2 t).1, (e1 t).1]
      have m1 := (e1 t).2.1
      by_cases hA : t ∈ A
      · have hA' := (hadd t).1 hA
        have hR : t ∉ R := fun h => hA'.2 ((hrem t).1 h).1
        simp only [hR, if_false, hA, if_true, hA'.1, hA'.2, not_false_eq_true, and_self, hclean t]
        unfold nextVer
        cases s.topicSync.map.get t <;> rfl
      · have hA' : ¬ (s.LocalTopic t ∧ t ∉ s.prev) := fun h => hA ((hadd t).2 h)
        by_cases hR : t ∈ R
        · have hR' := (hrem t).1 hR
          have hm : ¬ t ∈ (A.foldl (fun m t => VMap.insert m t SubStatus.subscribed)
            s.topicSync).modified := fun h => by
              rcases m1.1 h with h | h
              · exact hA h
              · exact hclean t h
          rw [if_pos hR, if_neg hA, if_neg hA', if_pos hR']
          simp only [hm, if_false]
          unfold nextVer
          cases s.topicSync.map.get t <;> rfl
        · have hR' : ¬ (t ∈ s.prev ∧ ¬ s.LocalTopic t) := fun h => hR ((hrem t).2 h)
          rw [if_neg hR, if_neg hA, if_neg hA', if_neg hR']
    generalize (R.foldl (fun m t => VMap.insert m t SubStatus.unsubscribed)
        (A.foldl (fun m t => VMap.insert m t SubStatus.subscribed) s.topicSync)) = M at *
    have hself : ∀ t, M.diff.1.map.get t = M.map.get t := by
      intro t
      rw [VMap.map_diff_self]
      split
      · have := hmap t
        rename_i hin
        rcases (hmod t).1 hin with h | h
        · rw [if_pos h] at this; rw [this]
        · rw [if_neg (fun h' => h.2 h'.1), if_pos h] at this; rw [this]
      · rfl
    refine ⟨hnow, by simp, trivial, trivial, ?_, ?_, ?_⟩
    · intro t; rw [hself, hmap]
    · intro heq
      apply hne
      have hAe : A = [] := List.eq_nil_iff_forall_not_mem.2
        (fun t ht => ((hadd t).1 ht).2 ((heq t).2 ((hadd t).1 ht).1))
      have hRe : R = [] := List.eq_nil_iff_forall_not_mem.2
        (fun t ht => ((hrem t).1 ht).2 ((heq t).1 ((hrem t).1 ht).1))
      simp [hAe, hRe]
    · intro t
      rw [VMap.map_diff_out, hself]
      have := hmod t
      by_cases h : t ∈ M.modified
      · rw [if_pos h, if_pos (this.1 h)]
      · rw [if_neg h, if_neg (fun h' => h (this.2 h'))]

theorem nextVer_le {s : Conns U B T H} {n : Nat} (h : TInv s n) (t : T) :
    nextVer s.topicSync t ≤ n + 1 := by
  unfold nextVer
  cases hm : s.topicSync.map.get t with
  | none => simp
  | some e =>
    have := (h.ent t e hm).2
    have h2 : VMap.bump e.version ≤ e.version + 1 := Nat.mod_le _ _
    simp only []; omega

theorem tinv_step {s : Conns U B T H} {n : Nat} (h : TInv s n) (op : Op U B T H) :
    TInv (s.step op) (n + 1) := by
  by_cases hop : op = .partialTopicSync
  · subst hop
    have sp := partialTopicSync_spec s h.index h.clean
    obtain ⟨h1, h2, h3, h4, h5, _⟩ := sp
    refine ⟨⟨?_, ?_⟩, h2, ?_, ?_⟩
    · simp only [step]; rw [h3]; exact h.index.1
    · simp only [step]; rw [h4]; exact h.index.2
    · intro t e he
      simp only [step] at he
      rw [h5] at he
      split at he
      · simp only [Option.some.injEq] at he; subst he; exact ⟨by simp, nextVer_le h t⟩
      · split at he
        · simp only [Option.some.injEq] at he; subst he; exact ⟨by simp, nextVer_le h t⟩
        · exact ⟨(h.ent t e he).1, Nat.le_succ_of_le (h.ent t e he).2⟩
    · intro t
      simp only [step]
      rw [h1]
      have hp := h.prev t
      simp only [VMap.get] at hp ⊢
      rw [h5]
      by_cases hl : s.LocalTopic t <;> by_cases hpv : t ∈ s.prev <;> simp [hl, hpv]
      · exact hp.2 hpv
      · exact fun e => hpv (hp.1 e)
  · obtain ⟨e1, e2⟩ := topicSync_step s op hop
    refine ⟨indexInv_step s op h.index, ?_, ?_, ?_⟩
    · rw [e1]; exact h.clean
    · rw [e1]; exact fun t e he => ⟨(h.ent t e he).1, Nat.le_succ_of_le (h.ent t e he).2⟩
    · rw [e1, e2]; exact h.prev

theorem tinv_run {s : Conns U B T H} {n : Nat} (h : TInv s n) (ops : List (Op U B T H)) :
    TInv (s.run ops) (n + ops.length) := by
  induction ops generalizing s n with
  | nil => exact h
  | cons op ops ih =>
    have := ih (tinv_step h op)
    rw [run_cons, List.length_cons]
    have e : n + (ops.length + 1) = n + 1 + ops.length := by omega
    rw [e]; exact this

/-- Every entry of `m` is an earlier, or the current, entry of `S`. -/
def Past (m S : TopicSync T) : Prop :=
  ∀ t e, m.map.get t = some e → ∃ e', S.map.get t = some e' ∧ (e.version < e'.version ∨ e = e')

theorem Past.refl (m : TopicSync T) : Past m m := fun _ e he => ⟨e, he, Or.inr rfl⟩

theorem Past.trans {a b c : TopicSync T} (h1 : Past a b) (h2 : Past b c) : Past a c := by
  intro t e he
  obtain ⟨e', he', h3⟩ := h1 t e he
  obtain ⟨e'', he'', h4⟩ := h2 t e' he'
  refine ⟨e'', he'', ?_⟩
  rcases h3 with h3 | rfl
  · rcases h4 with h4 | rfl
    · left; omega
    · left; exact h3
  · exact h4

theorem past_step {s : Conns U B T H} {n : Nat} (h : TInv s n) (hn : n + 1 < 2 ^ 64)
    (op : Op U B T H) : Past s.topicSync (s.step op).topicSync := by
  by_cases hop : op = .partialTopicSync
  · subst hop
    obtain ⟨_, _, _, _, h5, _⟩ :=
      partialTopicSync_spec s h.index h.clean
    intro t e he
    simp only [step]
    rw [h5]
    have hv : e.version < nextVer s.topicSync t := by
      have hle := (h.ent t e he).2
      have hb : VMap.bump e.version = e.version + 1 := Nat.mod_eq_of_lt (by omega)
      unfold nextVer
      rw [he]
      simp only []
      omega
    split
    · exact ⟨_, rfl, Or.inl hv⟩
    · split
      · exact ⟨_, rfl, Or.inl hv⟩
      · exact ⟨e, he, Or.inr rfl⟩
  · rw [(topicSync_step s op hop).1]; exact Past.refl _

theorem past_run {s : Conns U B T H} {n : Nat} (h : TInv s n) (ops : List (Op U B T H))
    (hn : n + ops.length < 2 ^ 64) : Past s.topicSync (s.run ops).topicSync := by
  induction ops generalizing s n with
  | nil => exact Past.refl _
  | cons op ops ih =>
    rw [List.length_cons] at hn
    exact (past_step h (by omega) op).trans (ih (tinv_step h op) (by omega))

/-! ## Receiver side -/

/-- Bookkeeping of the loop over the changed topics. -/
theorem foldl_applyTopicChange_bwd (b : B) (l : List (T × Option SubStatus))
    (nd : (l.map Prod.fst).Nodup) (s : Conns U B T H) (b' : B) (t : T) :
    (l.foldl (applyTopicChange b) s).bcBrokers.Bwd b' t ↔
      if b' = b ∧ t ∈ l.map Prod.fst then (t, some SubStatus.subscribed) ∈ l
      else s.bcBrokers.Bwd b' t := by
  induction l generalizing s with
  | nil => simp
  | cons c l ih =>
    rw [List.map_cons, List.nodup_cons] at nd
    rw [List.foldl_cons, ih nd.2]
    obtain ⟨ct, cv⟩ := c
    simp only at nd
    have hstep : (applyTopicChange b s (ct, cv)).bcBrokers.Bwd b' t ↔
        if b' = b ∧ t = ct then cv = some .subscribed else s.bcBrokers.Bwd b' t := by
      unfold applyTopicChange subscribeBroker unsubscribeBroker
      by_cases hcv : cv = some .subscribed
      · simp only [hcv, if_true, RMap.bwd_associate, List.mem_singleton]
        by_cases h : b' = b ∧ t = ct <;> simp [h]
      · simp only [hcv, if_false, RMap.bwd_dissociate, List.mem_singleton]
        by_cases h : b' = b ∧ t = ct <;> simp [h]
    rw [hstep]
    by_cases hb : b' = b
    · by_cases ht : t = ct
      · subst ht
        simp only [hb, true_and, nd.1, if_false, List.map_cons, List.mem_cons, true_or, if_true]
        have : (t, some SubStatus.subscribed) ∉ l := fun h => nd.1 (List.mem_map_of_mem (f := Prod.fst) h)
        simp only [this, or_false, Prod.mk.injEq, true_and]
        exact eq_comm
      · subst hb; simp only [true_and, ht, if_false, List.map_cons, List.mem_cons, false_or,
          Prod.mk.injEq, false_and]
    · simp [hb]

theorem indexInv_foldl_applyTopicChange (b : B) (l : List (T × Option SubStatus))
    (s : Conns U B T H) (h : s.IndexInv) : (l.foldl (applyTopicChange b) s).IndexInv := by
  refine foldl_preserves IndexInv _ ?_ l s h
  intro s c hs
  unfold applyTopicChange
  split
  · exact ⟨hs.1, RMap.inv_associate hs.2 b _⟩
  · exact ⟨hs.1, RMap.inv_dissociate hs.2 b _⟩

/-- Receiver's view of peer `b`. -/
structure RInv (r : Conns U B T H) (b : B) (S : TopicSync T) : Prop where
  index : r.IndexInv
  view : ∃ e, r.brokers.get b = some e ∧ Past e.topicSync S ∧
    (∀ t x, e.topicSync.map.get t = some x → x.value ≠ none) ∧
    (∀ t, r.bcBrokers.Bwd b t ↔ e.topicSync.get t = some .subscribed)

/-- Operations of the receiver that do not touch its record of peer `b`. -/
def NotAbout (b : B) : Op U B T H → Prop
  | .addBroker b' _ => b' ≠ b
  | .removeBroker b' => b' ≠ b
  | .subscribeBroker b' _ => b' ≠ b
  | .unsubscribeBroker b' _ => b' ≠ b
  | .applyTopicSync b' _ => b' ≠ b
  | _ => True

theorem notAbout_step (r : Conns U B T H) (b : B) (op : Op U B T H) (hidx : r.IndexInv)
    (h : NotAbout b op) :
    (r.step op).brokers.get b = r.brokers.get b ∧
    (∀ t, (r.step op).bcBrokers.Bwd b t ↔ r.bcBrokers.Bwd b t) := by
  cases op with
  | addUser u hd ts => simp [step, addUser]
  | removeUser u => simp [step]
  | addBroker b' hd =>
    simp only [NotAbout] at h
    simp only [step, addBroker, AMap.get_insert, h, if_false, removeBroker_bcBrokers]
    refine ⟨by rw [removeBroker_brokers_get]; simp [h], fun t => ?_⟩
    rw [RMap.bwd_removeKey hidx.2]
    have : b ≠ b' := fun e => h e.symm
    simp [this]
  | removeBroker b' =>
    simp only [NotAbout] at h
    simp only [step, removeBroker_bcBrokers]
    refine ⟨by rw [removeBroker_brokers_get]; simp [h], fun t => ?_⟩
    rw [RMap.bwd_removeKey hidx.2]
    have : b ≠ b' := fun e => h e.symm
    simp [this]
  | subscribeUser u ts => exact ⟨rfl, fun _ => Iff.rfl⟩
  | unsubscribeUser u ts => exact ⟨rfl, fun _ => Iff.rfl⟩
  | subscribeBroker b' ts =>
    simp only [NotAbout] at h
    refine ⟨rfl, fun t => ?_⟩
    have : ¬ b = b' := fun e => h e.symm
    simp [step, subscribeBroker, RMap.bwd_associate, this]
  | unsubscribeBroker b' ts =>
    simp only [NotAbout] at h
    refine ⟨rfl, fun t => ?_⟩
    have : ¬ b = b' := fun e => h e.symm
    simp [step, unsubscribeBroker, RMap.bwd_dissociate, this]
  | applyUserSync m =>
    obtain ⟨_, h2, h3, _⟩ := foldl_removeUser_frame { r with direct := (r.direct.merge m).1 }
      Prod.fst (r.direct.merge m).2
    simp only [step, applyUserSync, h2, h3]
    exact ⟨trivial, fun _ => trivial⟩
  | applyTopicSync b' m =>
    simp only [NotAbout] at h
    have hne : ¬ b = b' := fun e => h e.symm
    simp only [step, applyTopicSync]
    cases hb : r.brokers.get b' with
    | none =>
      simp only [removeBroker_bcBrokers]
      refine ⟨by rw [removeBroker_brokers_get]; simp [h], fun t => ?_⟩
      rw [RMap.bwd_removeKey hidx.2]
      simp [hne]
    | some e =>
      simp only []
      rw [(foldl_applyTopicChange_frame _ b' _).2.2.1]
      refine ⟨by simp [AMap.get_insert, h], fun t => ?_⟩
      rw [foldl_applyTopicChange_bwd b' _ (VMap.nodup_changes_merge _ _)]
      simp [hne]
  | partialUserSync => exact ⟨rfl, fun _ => Iff.rfl⟩
  | partialTopicSync =>
    simp only [step, getPartialTopicSync]
    split <;> exact ⟨rfl, fun _ => Iff.rfl⟩

/-- One delivered topic sync keeps the receiver's view within the sender's past, and an entry that is
current at the sender is current at the receiver afterwards. -/
theorem rinv_apply (r : Conns U B T H) (b : B) (S m : TopicSync T) (h : RInv r b S)
    (hm : Past m S) (hmv : ∀ t x, m.map.get t = some x → x.value ≠ none) :
    RInv (r.applyTopicSync b m) b S ∧
    (∀ e e', r.brokers.get b = some e → (r.applyTopicSync b m).brokers.get b = some e' →
      ∀ t x, S.map.get t = some x → (e.topicSync.map.get t = some x ∨ m.map.get t = some x) →
        e'.topicSync.map.get t = some x) := by
  obtain ⟨hidx, e, hb, hpast, hval, hbwd⟩ := h
  -- effect of the merge on one topic
  have hmerge : ∀ t, (e.topicSync.merge m).1.map.get t =
      match m.map.get t with
      | some x => if VMap.takes e.topicSync.ident m.ident (e.topicSync.map.get t) x then some x
                  else e.topicSync.map.get t
      | none => e.topicSync.map.get t := by
    intro t
    rw [VMap.map_merge]
    cases hx : m.map.get t with
    | none => rfl
    | some x =>
      have : x.value.isSome = true := Option.isSome_iff_ne_none.2 (hmv t x hx)
      simp [VMap.adopted, this]
  have hfr := foldl_applyTopicChange_frame
    { r with brokers := r.brokers.insert b { e with topicSync := (e.topicSync.merge m).1 } }
    b (e.topicSync.merge m).2
  have hbrk : (r.applyTopicSync b m).brokers.get b =
      some { e with topicSync := (e.topicSync.merge m).1 } := by
    simp only [applyTopicSync, hb]
    rw [hfr.2.2.1]; simp
  constructor
  · refine ⟨?_, ⟨{ e with topicSync := (e.topicSync.merge m).1 }, hbrk, ?_, ?_, ?_⟩⟩
    · exact indexInv_step r (.applyTopicSync b m) hidx
    · intro t x hx
      simp only [hmerge] at hx
      cases hmt : m.map.get t with
      | none => rw [hmt] at hx; exact hpast t x hx
      | some y =>
        rw [hmt] at hx
        simp only at hx
        split at hx
        · simp only [Option.some.injEq] at hx; subst hx; exact hm t y hmt
        · exact hpast t x hx
    · intro t x hx
      simp only [hmerge] at hx
      cases hmt : m.map.get t with
      | none => rw [hmt] at hx; exact hval t x hx
      | some y =>
        rw [hmt] at hx
        simp only at hx
        split at hx
        · simp only [Option.some.injEq] at hx; subst hx; exact hmv t y hmt
        · exact hval t x hx
    · intro t
      have hl : (r.applyTopicSync b m).bcBrokers.Bwd b t ↔
          if b = b ∧ t ∈ (e.topicSync.merge m).2.map Prod.fst
          then (t, some SubStatus.subscribed) ∈ (e.topicSync.merge m).2
          else r.bcBrokers.Bwd b t := by
        unfold applyTopicSync
        rw [hb]
        exact foldl_applyTopicChange_bwd b (e.topicSync.merge m).2
          (VMap.nodup_changes_merge e.topicSync m)
          { r with brokers := r.brokers.insert b { e with topicSync := (e.topicSync.merge m).1 } } b t
      rw [hl]
      simp only [true_and]
      by_cases hch : t ∈ ((e.topicSync.merge m).2).map Prod.fst
      · rw [if_pos hch]
        obtain ⟨⟨t', v⟩, hin, rfl⟩ := List.mem_map.1 hch
        obtain ⟨x, hx1, hx2, hx3⟩ := (VMap.mem_changes_merge _ _ _ _).1 hin
        have hget : (e.topicSync.merge m).1.get t' = v := by
          simp only [VMap.get]
          rw [hmerge, hx1]
          simp only [hx2, if_true]
          exact hx3
        simp only at hget ⊢
        rw [hget]
        constructor
        · intro h1
          obtain ⟨x', hx1', _, hx3'⟩ := (VMap.mem_changes_merge _ _ _ _).1 h1
          rw [hx1] at hx1'
          simp only [Option.some.injEq] at hx1'
          subst hx1'
          rw [← hx3, hx3']
        · intro h1; rw [← h1]; exact hin
      · rw [if_neg hch]
        have hun : (e.topicSync.merge m).1.map.get t = e.topicSync.map.get t := by
          rw [hmerge]
          cases hmt : m.map.get t with
          | none => rfl
          | some y =>
            simp only
            split
            · rename_i ht
              exact absurd (List.mem_map.2
                ⟨(t, y.value), (VMap.mem_changes_merge _ _ _ _).2 ⟨y, hmt, ht, rfl⟩, rfl⟩) hch
            · rfl
        have hg : (e.topicSync.merge m).1.get t = e.topicSync.get t := by simp only [VMap.get, hun]
        simp only [hg]
        exact hbwd t
  · intro e1 e2 h1 h2 t x hS hor
    rw [hb] at h1
    rw [hbrk] at h2
    simp only [Option.some.injEq] at h1 h2
    subst h1; subst h2
    simp only [hmerge]
    rcases hor with hl | hr
    · cases hmt : m.map.get t with
      | none => exact hl
      | some y =>
        simp only
        split
        · rename_i ht
          obtain ⟨x', hx', h3⟩ := hm t y hmt
          rw [hS] at hx'
          simp only [Option.some.injEq] at hx'
          subst hx'
          rcases h3 with h3 | rfl
          · rw [hl] at ht
            simp only [VMap.takes] at ht
            omega
          · rfl
        · exact hl
    · rw [hr]
      simp only
      split
      · rfl
      · rename_i ht
        cases hle : e.topicSync.map.get t with
        | none =>
          rw [hle] at ht
          simp only [VMap.takes] at ht
          exact absurd (Option.isSome_iff_ne_none.2 (hmv t x hr)) ht
        | some z =>
          obtain ⟨x', hx', h3⟩ := hpast t z hle
          rw [hS] at hx'
          simp only [Option.some.injEq] at hx'
          subst hx'
          rcases h3 with h3 | rfl
          · rw [hle] at ht
            simp only [VMap.takes, not_or] at ht
            exact absurd h3 ht.1
          · rfl

/-- Messages about peer `b` contained in a receiver history. -/
def delivered (b : B) : List (Op U B T H) → List (TopicSync T)
  | [] => []
  | .applyTopicSync b' m :: ops => if b' = b then m :: delivered b ops else delivered b ops
  | _ :: ops => delivered b ops

/-- The receiver history leaves the record of `b` alone apart from delivered topic syncs. -/
def OnlySyncs (b : B) : Op U B T H → Prop
  | .addBroker b' _ => b' ≠ b
  | .removeBroker b' => b' ≠ b
  | .subscribeBroker b' _ => b' ≠ b
  | .unsubscribeBroker b' _ => b' ≠ b
  | _ => True

theorem receiver_run (b : B) (S : TopicSync T) (ops : List (Op U B T H)) (r : Conns U B T H)
    (h : RInv r b S) (hops : ∀ op ∈ ops, OnlySyncs b op)
    (hd : ∀ m ∈ delivered b ops, Past m S ∧ ∀ t x, m.map.get t = some x → x.value ≠ none) :
    RInv (r.run ops) b S ∧
    (∀ e e', r.brokers.get b = some e → (r.run ops).brokers.get b = some e' →
      ∀ t x, S.map.get t = some x →
        (e.topicSync.map.get t = some x ∨ ∃ m ∈ delivered b ops, m.map.get t = some x) →
        e'.topicSync.map.get t = some x) := by
  induction ops generalizing r with
  | nil =>
    refine ⟨h, ?_⟩
    intro e e' h1 h2 t x _ hor
    simp only [run, List.foldl_nil] at h2
    rw [h1] at h2
    simp only [Option.some.injEq] at h2
    subst h2
    rcases hor with h3 | ⟨m, hm, _⟩
    · exact h3
    · simp [delivered] at hm
  | cons op ops ih =>
    rw [run_cons]
    have hops' : ∀ o ∈ ops, OnlySyncs b o := fun o ho => hops o (List.mem_cons_of_mem _ ho)
    by_cases hsync : ∃ m, op = .applyTopicSync b m
    · obtain ⟨m, rfl⟩ := hsync
      simp only [delivered, if_true, List.mem_cons, forall_eq_or_imp] at hd
      obtain ⟨h1, h2⟩ := rinv_apply r b S m h hd.1.1 hd.1.2
      obtain ⟨h3, h4⟩ := ih (r.step (.applyTopicSync b m)) h1 hops' hd.2
      refine ⟨h3, ?_⟩
      intro e e' he he' t x hS hor
      obtain ⟨em, hem, _⟩ := h1.view
      apply h4 em e' hem he' t x hS
      simp only [delivered, if_true, List.mem_cons, exists_eq_or_imp] at hor
      rcases hor with h5 | h5 | h5
      · left; exact h2 e em he hem t x hS (Or.inl h5)
      · left; exact h2 e em he hem t x hS (Or.inr h5)
      · right; exact h5
    · have hna : NotAbout b op := by
        have := hops op (List.mem_cons_self ..)
        cases op with
        | applyTopicSync b' m =>
          simp only [NotAbout]
          rintro rfl
          exact hsync ⟨m, rfl⟩
        | _ => exact this
      have hdel : delivered b (op :: ops) = delivered b ops := by
        cases op with
        | applyTopicSync b' m =>
          simp only [NotAbout] at hna
          simp [delivered, hna]
        | _ => rfl
      rw [hdel] at hd ⊢
      obtain ⟨n1, n2⟩ := notAbout_step r b op h.index hna
      have h1 : RInv (r.step op) b S := by
        obtain ⟨hidx, e, hb, hp, hv, hw⟩ := h
        refine ⟨indexInv_step r op hidx, ⟨e, by rw [n1]; exact hb, hp, hv, fun t => ?_⟩⟩
        rw [n2]; exact hw t
      obtain ⟨h3, h4⟩ := ih (r.step op) h1 hops' hd
      refine ⟨h3, ?_⟩
      intro e e' he he'
      exact h4 e e' (by rw [n1]; exact he) he'

end Verif.Conns
