import Verif.Endp.Adopt
/-!
# Properties of connecting sockets to incomplete endpoints
-/
namespace Cobalt.Endp

/-! ## Specification -/

/-- The type and internet protocol a class of sockets is for. -/
def SockKind.means : SockKind → Nat × Nat
  | .stream => (sockStream, ipprotoTcp)
  | .ssl => (sockStream, ipprotoTcp)
  | .datagram => (sockDgram, ipprotoUdp)
  | .seqPacket _ => (sockSeqpacket, ipprotoSctp)

/-- What is given is kept, what is not is that of the socket. Zero means not given; a protocol
is needed for internet endpoints only. -/
structure Completed (k : SockKind) (p q : Proto) : Prop where
  family : q.family = p.family
  type : q.type = if p.type = 0 then k.means.1 else p.type
  protocol : q.protocol =
    if p.protocol = 0 ∧ (p.family = afInet ∨ p.family = afInet6) then k.means.2 else p.protocol

/-- An endpoint with an address: internet or local. -/
def Known (p : Proto) : Prop := p.family = afInet ∨ p.family = afInet6 ∨ p.family = afUnix

/-- **C68**, in full. -/
def C68 : Prop :=
  ∀ k ps, (∀ p ∈ ps, Known p) →
    (SockKind.adoptAll k ps).length = ps.length ∧
    ∀ (i : Nat) (p : Proto), ps[i]? = some p → ∃ q, (SockKind.adoptAll k ps)[i]? = some q ∧ Completed k p q

theorem adopt_completes {k : SockKind} (hk : k ≠ .seqPacket false) {p : Proto} (h : Known p) :
    Completed k p (k.adopt p) := by
  rcases p with ⟨f, t, n⟩
  have d1 : afInet ≠ afInet6 := by decide
  have d2 : afUnix ≠ afInet := by decide
  have d3 : afUnix ≠ afInet6 := by decide
  simp only [Known] at h
  rcases k with _ | _ | _ | (_ | _)
  all_goals first
    | exact absurd rfl hk
    | (rcases h with h | h | h <;> subst h <;> by_cases ht : t = 0 <;> by_cases hn : n = 0 <;>
        constructor <;>
        simp [SockKind.adopt, fillType, fillProto, SockKind.means, ipprotoIp, d1, d2, d3,
          d1.symm, ht, hn])

/-- What holds: in full where the platform has SCTP, and for all but `seq_packet_socket` where it
has not. -/
theorem C68_partial (k : SockKind) (hk : k ≠ .seqPacket false) (ps : List Proto)
    (h : ∀ p ∈ ps, Known p) :
    (SockKind.adoptAll k ps).length = ps.length ∧
    ∀ (i : Nat) (p : Proto), ps[i]? = some p → ∃ q, (SockKind.adoptAll k ps)[i]? = some q ∧ Completed k p q := by
  refine ⟨by simp [SockKind.adoptAll], fun i p hi => ⟨k.adopt p, ?_, ?_⟩⟩
  · simp [SockKind.adoptAll, hi]
  · exact adopt_completes hk (h p (List.mem_of_getElem? hi))

example : SockKind.adoptAll .stream [Const.ip_v4.proto, Const.local_protocol.proto, Const.tcp_v6.proto]
    = [Const.tcp_v4.proto, Const.local_stream.proto, Const.tcp_v6.proto] ∧
    ∀ p ∈ [Const.ip_v4.proto, Const.local_protocol.proto, Const.tcp_v6.proto], Known p := by
  refine ⟨by decide, ?_⟩
  intro p hp
  simp only [List.mem_cons, List.not_mem_nil, or_false] at hp
  rcases hp with rfl | rfl | rfl
  · exact .inl rfl
  · exact .inr (.inr rfl)
  · exact .inr (.inl rfl)

/-- Without SCTP an internet endpoint given to a `seq_packet_socket` stays without a type. -/
theorem C68_violated : ¬ C68 := by
  intro h
  obtain ⟨q, hq, hc⟩ := (h (.seqPacket false) [Const.ip_v4.proto] (by
    intro p hp
    simp only [List.mem_singleton] at hp
    rw [hp]; exact .inl rfl)).2 0 _ rfl
  have h1 : q = Const.ip_v4.proto := by
    simp [SockKind.adoptAll, SockKind.adopt] at hq
    rw [← hq]; decide
  have h2 := hc.type
  rw [h1] at h2
  exact absurd h2 (by decide)

/-- The class of the socket wins over what the endpoint was made for: nothing checks that the
two fit. -/
theorem C68_mismatch : SockKind.adopt .stream ⟨afInet, 0, ipprotoUdp⟩ = ⟨afInet, sockStream, ipprotoUdp⟩ ∧
    SockKind.adopt .datagram Const.tcp_v4.proto = Const.tcp_v4.proto := by decide

/-- Exactly which endpoints are not completed: internet endpoints that leave something open,
by `seq_packet_socket` where there is no SCTP. -/
theorem C68_exact (k : SockKind) (p : Proto) (h : Known p) :
    Completed k p (k.adopt p) ↔
    (k ≠ .seqPacket false ∨ p.family = afUnix ∨ p.type ≠ 0 ∧ p.protocol ≠ 0) := by
  by_cases hk : k = .seqPacket false
  · subst hk
    rcases p with ⟨f, t, n⟩
    have d2 : afUnix ≠ afInet := by decide
    have d3 : afUnix ≠ afInet6 := by decide
    simp only [Known] at h
    simp only [ne_eq, not_true, false_or]
    have hi : ∀ f, f = afInet ∨ f = afInet6 → f ≠ afUnix →
        (Completed (.seqPacket false) ⟨f, t, n⟩ (SockKind.adopt (.seqPacket false) ⟨f, t, n⟩) ↔
          f = afUnix ∨ ¬ t = 0 ∧ ¬ n = 0) := by
      intro f hf hu
      have ha : SockKind.adopt (.seqPacket false) ⟨f, t, n⟩ = ⟨f, t, n⟩ := by
        simp [SockKind.adopt, hu]
      rw [ha]
      constructor
      · intro hc
        have h1 := hc.type
        have h2 := hc.protocol
        refine Or.inr ⟨fun h0 => ?_, fun h0 => ?_⟩
        · subst h0; revert h1; simp only [if_true]; decide
        · subst h0
          simp only [true_and, hf, if_true] at h2
          revert h2; decide
      · rintro (h0 | ⟨h0, h1⟩)
        · exact absurd h0 hu
        · exact ⟨rfl, by simp [h0], by simp [h1]⟩
    rcases h with h | h | h
    · exact hi f (Or.inl h) (by rw [h]; decide)
    · exact hi f (Or.inr h) (by rw [h]; decide)
    · subst h
      simp only [true_or, iff_true]
      by_cases ht : t = 0 <;> constructor <;>
        simp [SockKind.adopt, fillType, SockKind.means, d2, d3, ht]
  · exact ⟨fun _ => Or.inl hk, fun _ => adopt_completes hk h⟩

example : Known Const.sctp_v4.proto ∧ Known Const.local_seqpacket.proto := ⟨.inl rfl, .inr (.inr rfl)⟩

/-- Adopting twice is adopting once: a second `connect` with the endpoint reported by the first
is to the same protocol. -/
theorem C68_idempotent (k : SockKind) (p : Proto) : k.adopt (k.adopt p) = k.adopt p := by
  rcases p with ⟨f, t, n⟩
  have e1 : sockStream ≠ 0 := by decide
  have e2 : sockDgram ≠ 0 := by decide
  have e3 : sockSeqpacket ≠ 0 := by decide
  have e4 : ipprotoTcp ≠ 0 := by decide
  have e5 : ipprotoUdp ≠ 0 := by decide
  have e6 : ipprotoSctp ≠ 0 := by decide
  have d2 : afUnix ≠ afInet := by decide
  have d3 : afUnix ≠ afInet6 := by decide
  by_cases hf : f = afInet ∨ f = afInet6 <;> by_cases hu : f = afUnix <;>
    by_cases ht : t = 0 <;> by_cases hn : n = 0 <;>
    rcases k with _ | _ | _ | (_ | _) <;>
    simp [SockKind.adopt, fillType, fillProto, ipprotoIp, hf, hu, ht, hn, e1, e2, e3, e4, e5, e6, d2, d3]

end Cobalt.Endp
