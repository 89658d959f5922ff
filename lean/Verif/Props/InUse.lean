import Verif.Lemmas.LiveSame
import Verif.Lemmas.ZeroRoot
import Verif.Props.Repeat
/-
C63 and C90: what recovery and the order of hash maps leave alone.
-/
namespace Notatin
open Spec

theorem built_recorded (w : World) (b : Builder) (p : HiveParser) (h : b.build w = some (.ok p)) :
    RecordedDeleted p.state ∧ p.state.rootOffset = 0 := by
  unfold Builder.build at h
  split at h
  · cases h
  · cases h
  · split at h
    · cases h
    · cases h
    · rename_i sup hv ho
      have h1 := open_filed w b.recover b.primary _ sup hv ho
      have h2 := open_zero w b.recover b.primary _ sup hv ho
      split at h
      · cases h
      · cases h
      · cases h
      · rename_i st items hr
        have h1 := (h1 _ hr).recorded
        have h2 : st.rootOffset = 0 := h2 _ hr
        simp only at h
        cases sup with
        | false => cases h; exact ⟨h1, h2⟩
        | true =>
          simp only [if_true] at h
          split at h
          · cases h
          · cases h
          · rename_i root ro hi
            cases h
            exact ⟨h1, (initRoot_noFilter hi).trans h2⟩

theorem initRoot_beside (env : Env) {st st' : State} (hs : Beside st st') (n : Node) (ro : Nat)
    (h : initRoot env st = .ok (some n, ro)) : ∃ m, initRoot env st' = .ok (some m, ro) ∧ Like n m := by
  unfold initRoot at h ⊢
  split at h
  · cases h
  · split at h
    · cases h
    · exact (readKey_beside env hs _).2.2 n ro h

/-- A hive opened with recovery and the same one opened without. -/
theorem built_beside (w : World) (b : Builder) (p : HiveParser) (h : (b.recoverDeleted true).build w = some (.ok p))
    (hroot : p.root ≠ none) :
    ∃ q, (b.recoverDeleted false).build w = some (.ok q) ∧ q.env = p.env ∧ q.header = p.header ∧ Beside p.state q.state ∧
      ∃ r r', p.root = some r ∧ q.root = some r' ∧ Like r r' := by
  obtain ⟨q, hq, e1, e2, e3, _⟩ := recovery_only_adds_partial w b p h
  obtain ⟨p1, p2⟩ := built_recorded w _ p h
  obtain ⟨_, st, ro, r, i2, i3, i4⟩ := built_init w _ p h hroot
  have hqr : q.root ≠ none := by
    intro hn
    rw [hn, i3] at e3
    cases e3
  obtain ⟨_, q2, q3, q4⟩ := built_plain w (b.recoverDeleted false) q rfl hq hqr
  have hbe : Beside p.state q.state := ⟨p1, q2, p2.trans q3.symm⟩
  refine ⟨q, hq, e1, e2, hbe, r, ?_⟩
  have hro := initRoot_noFilter i4
  have hst : Beside st q.state := by
    rw [i2] at hbe
    exact ⟨hbe.onrec, hbe.plain, hro.symm.trans hbe.ro⟩
  rw [e1] at q4
  obtain ⟨m, hm, hl⟩ := initRoot_beside p.env hst r ro i4
  rw [hm] at q4
  simp only [Res.ok.injEq, Prod.mk.injEq] at q4
  exact ⟨m, i3, q4.1.symm, hl⟩

/-- C63, partial: whatever the bytes of the hive and its logs.  If a listing with recovery ends, then with the same filter
and options the listing without recovery ends, and its keys are, in the same order, the keys in use listed with recovery,
with all they say and with the same values in use.  And a path that is looked up with recovery leads to the same key
without, or to none.  Missing: listings and lookups with recovery that crash, and the other order. -/
theorem recovery_same_in_use_partial (w : World) (b : Builder) (p : HiveParser)
    (h : (b.recoverDeleted true).build w = some (.ok p)) (hroot : p.root ≠ none) :
    ∃ q, (b.recoverDeleted false).build w = some (.ok q) ∧
      (∀ f gm anc s ns, p.iterate s f false gm anc = some (.ok ns) →
        ∃ N ms, (∀ t, N ≤ t → q.iterate t f false gm anc = some (.ok ms)) ∧ keysInUse ns = ms.map inUse ∧
          ∀ m ∈ ms, m.key.cellState = .Allocated) ∧
      ∀ path hasRoot x ro, getKey p.env p.state p.header.base.rootCellOffset path hasRoot = .ok (x, ro) →
        ∃ y, getKey q.env q.state q.header.base.rootCellOffset path hasRoot = .ok (y, ro) ∧ x.map inUse = y.map inUse := by
  obtain ⟨q, hq, e1, e2, hs, r, r', h1, h2, hl⟩ := built_beside w b p h hroot
  refine ⟨q, hq, fun f gm anc s ns hi => ?_, fun path hasRoot x ro hk => ?_⟩
  · have hc : CtxMixed (.start p.state p.root f gm anc) (.start q.state q.root f gm anc) := by
      rw [h1, h2]
      exact ⟨hs, rfl, by
        show [r.key.fileOffset] = [r'.key.fileOffset]
        rw [like_field hl.same (·.fileOffset) (fun _ => rfl)], rfl, rfl, .both hl .nil⟩
    obtain ⟨ms, hr, hm⟩ := pre_runs_mixed p.env (pre_collect_runs p.env s _ ns hi) hc
    obtain ⟨N, hN⟩ := pre_runs_collect p.env hr
    rw [← e1] at hN
    exact ⟨N, ms, hN, hm.inUse⟩
  · obtain ⟨y, hy, ha⟩ := getKey_beside p.env hs _ path hasRoot x ro hk
    rw [e1, e2]
    refine ⟨y, hy, ?_⟩
    rcases ha with ⟨rfl, rfl⟩ | ⟨n, m, rfl, rfl, hnm⟩
    · rfl
    · exact congrArg some hnm.same

/-- C90: with recovery, too, the keys in use are listed in the same order with the same contents, and looked up the same,
whatever the order of hash maps. -/
theorem in_use_again (w w' : World) (hh : w.hashFn = w'.hashFn) (b : Builder) (p q : HiveParser)
    (hp : (b.recoverDeleted true).build w = some (.ok p)) (hq : (b.recoverDeleted true).build w' = some (.ok q))
    (hpr : p.root ≠ none) (hqr : q.root ≠ none) :
    (∀ f gm anc s t ns ms, p.iterate s f false gm anc = some (.ok ns) → q.iterate t f false gm anc = some (.ok ms) →
      keysInUse ns = keysInUse ms) ∧
    ∀ path hasRoot x y ro ro', getKey p.env p.state p.header.base.rootCellOffset path hasRoot = .ok (x, ro) →
      getKey q.env q.state q.header.base.rootCellOffset path hasRoot = .ok (y, ro') → x.map inUse = y.map inUse := by
  obtain ⟨p0, a1, a2, a3⟩ := recovery_same_in_use_partial w b p hp hpr
  obtain ⟨q0, b1, b2, b3⟩ := recovery_same_in_use_partial w' b q hq hqr
  obtain ⟨_, s1, s2, _⟩ := open_again_plain w w' hh (b.recoverDeleted false) rfl p0 q0 a1 b1
  refine ⟨fun f gm anc s t ns ms h1 h2 => ?_, fun path hasRoot x y ro ro' h1 h2 => ?_⟩
  · obtain ⟨N, ns0, c1, c2, _⟩ := a2 f gm anc s ns h1
    obtain ⟨M, ms0, d1, d2, _⟩ := b2 f gm anc t ms h2
    have := s1 f false gm anc N M _ _ (c1 N (Nat.le_refl _)) (d1 M (Nat.le_refl _)) nofun nofun
    cases this
    rw [c2, d2]
  · obtain ⟨x0, c1, c2⟩ := a3 path hasRoot x ro h1
    obtain ⟨y0, d1, d2⟩ := b3 path hasRoot y ro' h2
    have := s2 path hasRoot _ _ c1 d1 nofun nofun
    cases this
    rw [c2, d2]

/-! ### Examples -/

/-- The hypotheses of both: the hive with two deleted keys, of which four keys are listed, two of them in use. -/
example : ∃ p q ns ms, twinBuilder.build roomyWorld = some (.ok p) ∧ twinBuilder.build backWorld = some (.ok q) ∧
    p.iterate 100 = some (.ok ns) ∧ q.iterate 100 = some (.ok ms) ∧ ns.length = 4 ∧ (keysInUse ns).length = 2 ∧
    keysInUse ns = keysInUse ms := by
  have h1 : (match twinBuilder.build roomyWorld with
    | some (.ok p) => p.root.isSome && (match p.iterate 100 with
      | some (.ok ns) => decide (ns.length = 4) && decide ((ns.filter fun n => decide (n.key.cellState = .Allocated)).length = 2)
      | _ => false)
    | _ => false) = true := by decide +kernel
  have h2 : (match twinBuilder.build backWorld with
    | some (.ok p) => p.root.isSome && (match p.iterate 100 with
      | some (.ok _) => true
      | _ => false)
    | _ => false) = true := by decide +kernel
  split at h1
  · rename_i p hp
    split at h2
    · rename_i q hq
      rw [Bool.and_eq_true] at h1 h2
      obtain ⟨r1, h1⟩ := h1
      obtain ⟨r2, h2⟩ := h2
      split at h1
      · rename_i ns hns
        split at h2
        · rename_i ms hms
          rw [Bool.and_eq_true] at h1
          refine ⟨p, q, ns, ms, hp, hq, hns, hms, of_decide_eq_true h1.1, ?_, ?_⟩
          · unfold keysInUse
            rw [List.length_map]
            exact of_decide_eq_true h1.2
          · exact (in_use_again roomyWorld backWorld rfl twinBuilder p q hp hq
              (by intro h; rw [h] at r1; cases r1) (by intro h; rw [h] at r2; cases r2)).1 {} true false 100 100 ns ms hns hms
        · cases h2
      · cases h1
    · cases h2
  · cases h1

end Notatin
