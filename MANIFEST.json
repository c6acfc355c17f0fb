{
 "claims": [
  {
   "property": "C01",
   "status": "proved",
   "theorems": [
    "Mozak.Runner.exec_word_refines_rv32im",
    "Mozak.Runner.exec_word_aborts_on_readonly"
   ],
   "note": ""
  },
  {
   "property": "C02",
   "status": "proved",
   "theorems": [
    "Mozak.Runner.decode_accepts_iff",
    "Mozak.Runner.decode_rejects",
    "Mozak.Runner.decode_nop",
    "Mozak.Runner.decode_ecall"
   ],
   "note": ""
  },
  {
   "property": "C03",
   "status": "proved",
   "theorems": [
    "Mozak.Runner.x0_is_zero"
   ],
   "note": ""
  },
  {
   "property": "C04",
   "status": "proved",
   "theorems": [
    "Mozak.Runner.readonly_never_changes",
    "Mozak.Runner.readonly_write_aborts",
    "Mozak.Runner.exec_word_aborts_on_readonly"
   ],
   "note": ""
  },
  {
   "property": "C05",
   "status": "proved",
   "theorems": [
    "Mozak.Runner.step_memory",
    "Mozak.Runner.load_sees_last_write"
   ],
   "note": "little-endian multi-byte accesses are part of exec_word_refines_rv32im (C01)"
  },
  {
   "property": "C06",
   "status": "proved",
   "theorems": [
    "Mozak.Runner.run_record",
    "Mozak.Runner.record_is_chain",
    "Mozak.Runner.run_deterministic",
    "Mozak.Runner.run_complete"
   ],
   "note": ""
  },
  {
   "property": "C07",
   "status": "proved",
   "theorems": [
    "Mozak.Runner.tape_prefix",
    "Mozak.Runner.read_delivers_next",
    "Mozak.Runner.other_instructions_keep_tape"
   ],
   "note": ""
  },
  {
   "property": "C08",
   "status": "proved",
   "theorems": [
    "Mozak.Runner.commitment_reads_constant"
   ],
   "note": ""
  },
  {
   "property": "C09",
   "status": "proved",
   "theorems": [
    "Mozak.Runner.divu_remu_law",
    "Mozak.Runner.div_rem_law",
    "Mozak.Runner.div_by_zero",
    "Mozak.Runner.div_overflow",
    "Mozak.Runner.div_rem_wrapping"
   ],
   "note": ""
  },
  {
   "property": "C10",
   "status": "proved",
   "theorems": [
    "Mozak.Runner.mulhu_mul",
    "Mozak.Runner.mulh_mul",
    "Mozak.Runner.mulhsu_mul"
   ],
   "note": ""
  },
  {
   "property": "C100",
   "status": "proved",
   "theorems": [
    "Mozak.Apps.token_run_iff",
    "Mozak.Apps.wallet_run_iff",
    "Mozak.Apps.transfers_complete"
   ],
   "note": "As C99; the hash function is a parameter."
  },
  {
   "property": "C101",
   "status": "partial",
   "theorems": [
    "Mozak.Apps.stolen",
    "Mozak.Apps.not_owner_consents",
    "Mozak.Apps.owner_consents_partial",
    "Mozak.Apps.approval_for_any_key"
   ],
   "note": "False of the code: the caller of a transfer chooses the program that is asked for approval, and nothing ties it to the object, so a program that approves everything will do (stolen); nor does the request contain the new owner's key (approval_for_any_key). owner_consents_partial: it holds for transfers that name the wallet program."
  },
  {
   "property": "C102",
   "status": "partial",
   "theorems": [
    "Mozak.Node.finalize_spec",
    "Mozak.Node.finalize_hashes_wrong_old_object",
    "Mozak.Node.written_object_block_refused",
    "Mozak.Node.finalize_binds_objects_partial"
   ],
   "note": "False of the code: finalize passes the new object's update height to the circuit as the old one's (matches.rs:185), so for an object that is written the proof is about another old object, and the block cannot be added to the log (written_object_block_refused). finalize_spec says what the proof is about, for all histories; finalize_binds_objects_partial: the property holds if the update heights of the objects touched stay the same."
  },
  {
   "property": "C103",
   "status": "partial",
   "theorems": [
    "Mozak.Node.event_roots_disagree",
    "Mozak.Node.event_roots_agree_partial"
   ],
   "note": "False of the code: four events of one program on one address are hashed as a balanced tree on one side and from the left on the other (event_roots_disagree). event_roots_agree_partial: it holds, for all histories, if no address has more than two events and those on an address come from one program."
  },
  {
   "property": "C104",
   "status": "proved",
   "theorems": [
    "Mozak.Node.block_log",
    "Mozak.Node.block_log_certified"
   ],
   "note": "A proof is represented by its public inputs."
  },
  {
   "property": "C105",
   "status": "partial",
   "theorems": [
    "Mozak.Node.double_write_panics",
    "Mozak.Node.conflicting_transactions_panic",
    "Mozak.Node.ingest_succeeds_iff_partial",
    "Mozak.Node.ready_succeeds_iff_partial",
    "Mozak.Node.matcher_proofs_satisfy_circuits"
   ],
   "note": "False of the code: two writes of one object in a transaction, or in two transactions of a block, bring the process down. The partial theorems say exactly when the calls succeed."
  },
  {
   "property": "C106",
   "status": "partial",
   "theorems": [
    "Mozak.Node.converted_events_collide",
    "Mozak.Node.convert_event_faithful_partial"
   ],
   "note": "False of the code: words of a digest that differ by the field's order are identified. convert_event_faithful_partial: everything else, and no loss for canonical words."
  },
  {
   "property": "C107",
   "status": "partial",
   "theorems": [
    "Mozak.Sdk.recording_correct",
    "Mozak.Sdk.replay_iff_partial",
    "Mozak.Sdk.replay_inputs",
    "Mozak.Sdk.raw_tapes_unique",
    "Mozak.Sdk.merkleize_profile",
    "Mozak.Sdk.replay_fails_top_bit",
    "Mozak.Sdk.replay_fails_interleaved"
   ],
   "note": "False as stated: replay_iff_partial characterises exactly the recordings that replay; replay_fails_top_bit and replay_fails_interleaved are recordings that run natively and do not replay. rkyv is a parameter (what is written is read back); the JSON file between the native run and the CLI is not modelled."
  },
  {
   "property": "C108",
   "status": "proved",
   "theorems": [
    "Mozak.Recproofs.Indices.new_iff",
    "Mozak.Recproofs.Indices.get_new",
    "Mozak.Recproofs.Indices.get_field_reads",
    "Mozak.Recproofs.Indices.set_field_writes",
    "Mozak.Recproofs.Indices.repeated_target_not_written",
    "Mozak.Recproofs.Indices.twice_registered_target",
    "Mozak.Recproofs.Indices.verifierData_positions"
   ],
   "note": "Writing requires the targets of the value to be different from one another (repeated_target_not_written); a target registered twice is only written at its first place (twice_registered_target)."
  },
  {
   "property": "C109",
   "status": "proved",
   "theorems": [
    "Mozak.Circuits.Rec.recursive_verifier_exact",
    "Mozak.Circuits.Rec.accepted_proof_is_provable",
    "Mozak.Circuits.Rec.satisfied_circuit_is_accepted",
    "Mozak.Circuits.Rec.public_input_layout"
   ],
   "note": "FRI, the challenger's permutation, the extension field and plonky2's gadgets are parameters: both verifiers are given the same ones. A panic of the native verifier counts as not accepting. Which bytes can stand for the program id is C88."
  },
  {
   "property": "C11",
   "status": "proved",
   "theorems": [
    "Mozak.Runner.halts_iff",
    "Mozak.Runner.halt_effect",
    "Mozak.Runner.undefined_ecall_is_noop",
    "Mozak.Runner.ecall_keeps_registers",
    "Mozak.Runner.ecall_advances_pc",
    "Mozak.Runner.panic_never_returns",
    "Mozak.Runner.trace_log_outcome",
    "Mozak.Runner.panic_outcome"
   ],
   "note": ""
  },
  {
   "property": "C110",
   "status": "proved",
   "theorems": [
    "Mozak.Circuits.Rec.recursive_batch_verifier_exact",
    "Mozak.Circuits.Rec.accepted_batch_proof_is_provable"
   ],
   "note": "FRI, batch FRI, the challenger's permutation, the extension field and plonky2's gadgets are parameters: both verifiers are given the same ones. That the native batch verifier also accepts proofs of other shapes is C94."
  },
  {
   "property": "C111",
   "status": "proved",
   "theorems": [
    "Mozak.Circuits.Rec.honest_proof_accepted",
    "Mozak.Circuits.Rec.prover_gives_up_only_by_accident",
    "Mozak.Circuits.Rec.goldilocks_domain"
   ],
   "note": "Taken from plonky2: an opening proof of polynomials of the right degree is accepted with their values (Oracle.Complete), and the Fourier transforms interpolate. goldilocks_domain shows that plonky2's roots of unity and coset of the VM's field are as assumed."
  },
  {
   "property": "C112",
   "status": "proved",
   "theorems": [
    "Mozak.Circuits.Rec.verifier_sound",
    "Mozak.Circuits.Rec.verifier_sound_each",
    "Mozak.Circuits.Rec.padded_rows_accepted"
   ],
   "note": "FRI is the assumption that openings are values of committed polynomials of the right degree (Transcript). That published rows have the declared widths is a hypothesis (Widths): padded_rows_accepted shows that the verifier accepts rows of other widths. The public values are fixed before the challenges: that the transcript does not enforce this is C82."
  },
  {
   "property": "C113",
   "status": "partial",
   "theorems": [
    "Mozak.Circuits.every_program_halts",
    "Mozak.Circuits.accepted_without_run",
    "Mozak.Circuits.Accept.accepted_run_partial",
    "Mozak.Circuits.Accept.honest_run_accepted"
   ],
   "note": "The property is false of the code: every_program_halts builds the tables for every program with an instruction at its entry point (the immediate is not constrained to be the one of the program, as the packed instruction is a sum), and accepted_without_run has a program that never halts. accepted_run_partial proves the property, for all programs as the loader makes them (`Tidy`) and all tables, including tape reads and hash calls, for tables that in addition meet the conditions listed in `Accept.Closed`, each of which the verifier leaves unchecked and names the theorem that shows what goes wrong without it; honest_run_accepted shows that every honest prover of a run (up to 2^20 steps, bytes and hashed bytes) meets them. Nothing else is missing."
  },
  {
   "property": "C114",
   "status": "proved",
   "theorems": [
    "Mozak.Circuits.Rec.batch_verifier_sound",
    "Mozak.Circuits.Rec.batch_circuit_sound"
   ],
   "note": "FRI is the assumption that openings are values of committed polynomials of the right degree (BatchRounds). The native batch verifier does not check that a table of the batch has all its quotient openings, so that is part of BatchTranscript (without it any trace passes: C94); the circuit checks it, and batch_circuit_sound does not assume it. Public values are fixed before the challenges (see C82)."
  },
  {
   "property": "C115",
   "status": "proved",
   "theorems": [
    "Mozak.Circuits.Rec.honest_batch_proof_accepted",
    "Mozak.Circuits.Rec.honest_batch_publishes",
    "Mozak.Circuits.Rec.honest_batch_proof_in_circuit",
    "Mozak.Circuits.Rec.batch_prover_gives_up_only_by_accident"
   ],
   "note": "plonky2's commitments and opening proofs are parameters with completeness as hypothesis (BatchOracle.Complete). The verifier compacts the challenger before each public table and the prover does not; that this makes no difference (Settled) holds of a challenger that has nothing buffered after a challenge, which the example shows of a duplex challenger. The list of public tables has to be in the order of the tables (else prover and verifier observe their caps in different orders: C95). The assertion on FRI arities of single tables in batch_prover.rs:566-570 is left out."
  },
  {
   "property": "C116",
   "status": "partial",
   "theorems": [
    "Mozak.Sdk.bundle_spec",
    "Mozak.Sdk.bundle_complete_partial",
    "Mozak.Sdk.raw_tapes_exist_iff",
    "Mozak.Sdk.bundle_exists_iff",
    "Mozak.Sdk.bundle_skips_unknown",
    "Mozak.Sdk.call_tape_hash_disagrees"
   ],
   "note": "Proved of every bundle: the cast list is the sorted list of called programs, equal to the list that the programs commit to in the VM without the null program; attestations, their order and their contents; and exactly when a bundle is made. False without the hypothesis that the map knows every program: an unknown program is dropped without an error, and the call tape hash is then of a run of another program (bundle_skips_unknown). Also false: that all programs agree on the call tape hash, because the committed trace contains the times of the reads (call_tape_hash_disagrees). Files and JSON are left out; the map is a function, loading a program and the commitment are parameters."
  },
  {
   "property": "C117",
   "status": "proved",
   "theorems": [
    "Mozak.Sdk.parse_iff",
    "Mozak.Sdk.parse_print",
    "Mozak.Sdk.print_injective",
    "Mozak.Sdk.spells_length",
    "Mozak.Sdk.parse_same",
    "Mozak.Sdk.programsMap_reads",
    "Mozak.Sdk.programsMap_finds",
    "Mozak.Sdk.id_check_iff",
    "Mozak.Sdk.id_check_unique",
    "Mozak.Sdk.documented_null_unreadable"
   ],
   "note": "The crate hex and str::split are modelled as their documentation says. The text that the documentation of is_null_program gives for the null program has 63 digits and cannot be read (documented_null_unreadable)."
  },
  {
   "property": "C118",
   "status": "proved",
   "theorems": [
    "Mozak.Apps.counter_native_replays",
    "Mozak.Apps.token_native_replays",
    "Mozak.Apps.wallet_native_replays_iff",
    "Mozak.Apps.counterClient_iff",
    "Mozak.Apps.counter_end_to_end",
    "Mozak.Apps.counter_two_objects_no_tapes",
    "Mozak.Apps.token_end_to_end",
    "Mozak.Apps.token_main_completes",
    "Mozak.Apps.wallet_end_to_end"
   ],
   "note": "rkyv and the archive of the tapes are parameters (what is written is read back). Seeded random keys and addresses of the native mains are arguments. The native wallet checks nothing (token_end_to_end: any bytes in the place of the key are recorded); an honest run over two objects whose addresses differ in the top bit and no third gets no tapes (counter_two_objects_no_tapes)."
  },
  {
   "property": "C119",
   "status": "proved",
   "theorems": [
    "Mozak.Apps.input_run_iff",
    "Mozak.Apps.input_native_replays_iff",
    "Mozak.Apps.input_end_to_end"
   ],
   "note": "The two argument and return types have one value each and are Unit; rkyv and the tape archive are parameters. The seeded random 32 bytes of the native main are an argument. The program asks each tape for its fixed length, so a second call always panics (input_end_to_end)."
  },
  {
   "property": "C12",
   "status": "proved",
   "theorems": [
    "Mozak.Runner.code_from_image",
    "Mozak.Runner.code_from_image_total"
   ],
   "note": ""
  },
  {
   "property": "C120",
   "status": "proved",
   "theorems": [
    "Mozak.Circuits.Rec.debug_checks_iff",
    "Mozak.Circuits.Rec.checkSingleCtl_iff",
    "Mozak.Circuits.Rec.debug_changes_nothing",
    "Mozak.Circuits.Rec.debug_proof_accepted",
    "Mozak.Circuits.Rec.debug_batch_proof_accepted",
    "Mozak.Circuits.Rec.debug_ignores_public"
   ],
   "note": "The property is about what debug mode decides, not about the messages it logs. Debug mode does not look at public sub tables: it can pass traces whose public filters are not bits (debug_ignores_public), so that the statement about proofs assumes these. Traces are rectangular tables with a power of two of rows, as generate_traces makes them; starky's debug consumer and plonky2's transpose are modelled by what they compute."
  },
  {
   "property": "C121",
   "status": "proved",
   "theorems": [
    "Mozak.Runner.execute_runs",
    "Mozak.Runner.execute_straight",
    "Mozak.Runner.execute_aborts",
    "Mozak.Runner.execute_falls_out",
    "Mozak.Runner.execute_diverges",
    "Mozak.Runner.execute_bad_register",
    "Mozak.Runner.exists_listing"
   ],
   "note": "The list of instructions is the decoding of RV32IM instructions laid out from address zero on (every list that fits has one); lists of 2^30 - 1 instructions and more are not covered. System calls other than the two appended instructions are the subject of C02 to C05."
  },
  {
   "property": "C13",
   "status": "proved",
   "theorems": [
    "Mozak.Runner.loaded_image",
    "Mozak.Runner.lastByte_isSome",
    "Mozak.Runner.rwx_segment_reads_zero",
    "Mozak.Runner.load_succeeds_iff"
   ],
   "note": "the loader's comment about RWX segments is refuted by rwx_segment_reads_zero"
  },
  {
   "property": "C14",
   "status": "proved",
   "theorems": [
    "Mozak.Runner.word_image_accepted_iff",
    "Mozak.Runner.word_image_contents",
    "Mozak.Runner.word_program_contents"
   ],
   "note": ""
  },
  {
   "property": "C15",
   "status": "proved",
   "theorems": [
    "Mozak.Runner.hash_call",
    "Mozak.Runner.hash_call_aborts",
    "Mozak.Runner.hash_call_succeeds"
   ],
   "note": ""
  },
  {
   "property": "C16",
   "status": "proved",
   "theorems": [
    "Mozak.Runner.columns_agree",
    "Mozak.Runner.memory_column_agrees"
   ],
   "note": ""
  },
  {
   "property": "C17",
   "status": "proved",
   "theorems": [
    "Mozak.Runner.abort_reasons",
    "Mozak.Runner.trace_log_outcome",
    "Mozak.Runner.panic_outcome"
   ],
   "note": ""
  },
  {
   "property": "C20",
   "status": "proved",
   "theorems": [
    "Mozak.Circuits.cpu_alu_sound",
    "Mozak.Circuits.add_table_sound",
    "Mozak.Circuits.add_table_range_checked",
    "Mozak.Circuits.cpu_range_checked"
   ],
   "note": "SUB/XOR/OR/AND in the CPU table, ADD in its own table; lookups taken as ideal (what the range-check, xor and shift tables are meant to contain), the register plus immediate not overflowing as in every decoded instruction."
  },
  {
   "property": "C21",
   "status": "proved",
   "theorems": [
    "Mozak.Circuits.mul_sound"
   ],
   "note": "MUL, MULH, MULHU, MULHSU and SLL, for all rows; lookups ideal."
  },
  {
   "property": "C22",
   "status": "partial",
   "theorems": [
    "Mozak.Circuits.div_sound_partial",
    "Mozak.Circuits.division_forged",
    "Mozak.Circuits.signed_division_forged",
    "Mozak.Circuits.remainder_forged"
   ],
   "note": "Proved if the column for the quotient's sign is a bit, which no constraint forces; without it the claim is false: forged quotient and remainder rows."
  },
  {
   "property": "C23",
   "status": "partial",
   "theorems": [
    "Mozak.Circuits.branch_sound",
    "Mozak.Circuits.slt_sound_partial",
    "Mozak.Circuits.comparison_forged"
   ],
   "note": "Branches proved in full for the CPU table. SLT/SLTU proved only if the absolute difference is a 32-bit value; the circuit range-checks it only for branches, and the claim is false: forged rows."
  },
  {
   "property": "C24",
   "status": "partial",
   "theorems": [
    "Mozak.Circuits.shift_amount_sound",
    "Mozak.Circuits.jalr_sound_partial",
    "Mozak.Circuits.jump_to_odd",
    "Mozak.Circuits.jump_below_zero",
    "Mozak.Circuits.last_row_target_free"
   ],
   "note": "Shift amounts and return addresses proved. The jump target is right only if it is a 32-bit value and even; refuted otherwise; in the last row of the table it is free."
  },
  {
   "property": "C25",
   "status": "proved",
   "theorems": [
    "Mozak.Circuits.memory_sound",
    "Mozak.Circuits.memory_write_protected",
    "Mozak.Circuits.memory_load_latest",
    "Mozak.Circuits.memory_init_unique",
    "Mozak.Circuits.memory_store_writable"
   ],
   "note": "For every table of up to 2^32 rows satisfying the constraints and range lookups (range lookups taken as ideal 32-bit checks; see C30 for how far the range-check table delivers that): each load of the CPU tables returns the latest earlier store, else the image byte or zero; a store to an address initialised read-only is impossible; addresses are 32-bit."
  },
  {
   "property": "C26",
   "status": "partial",
   "theorems": [
    "Mozak.Circuits.register_zero_reads",
    "Mozak.Circuits.register_sound_partial",
    "Mozak.Circuits.register_initial_forged",
    "Mozak.Circuits.register_reset_forged"
   ],
   "note": "The property is FALSE as stated: register_initial_forged (the first row of the table need not be an initialisation, so the first read of x1 may return anything) and register_reset_forged (the honest initialisation table lists x31 twice, so writes of x31 can be undone). register_sound_partial proves it when the first row is an initialisation and no register is initialised twice; register_zero_reads (x0 reads zero) holds without those."
  },
  {
   "property": "C27",
   "status": "partial",
   "theorems": [
    "Mozak.Circuits.rom_injective",
    "Mozak.Circuits.rom_lookup_partial",
    "Mozak.Circuits.any_instruction_as_nop",
    "Mozak.Circuits.any_instruction_as_halt"
   ],
   "note": "Injectivity proved for in-range fields. The immediate of a CPU row is not range-checked, so every program entry can be matched by a row that does nothing or that halts: refuted."
  },
  {
   "property": "C28",
   "status": "proved",
   "theorems": [
    "Mozak.Circuits.ctl_sound",
    "Mozak.Circuits.ctl_complete",
    "Mozak.Circuits.balanced_iff_perm",
    "Mozak.Circuits.balanced_subset",
    "Mozak.Circuits.public_sub_table_sound",
    "Mozak.Circuits.cancelling_lookup"
   ],
   "note": "Soundness bound (k+2)*n*p of the p*p challenges for any unbalanced lookup, whatever running sums are committed; completeness of partial_sums; balancing = equal multisets when filters are binary; cancelling_lookup shows that with free multiplicities balancing does not imply membership."
  },
  {
   "property": "C29",
   "status": "proved",
   "theorems": [
    "Mozak.Expr.evaluation_is_arithmetic",
    "Mozak.Expr.field_evaluation",
    "Mozak.Expr.cache_transparent",
    "Mozak.Expr.built_in_arena",
    "Mozak.Expr.constant_folding_wraps",
    "Mozak.Expr.plain_count",
    "Mozak.Expr.cached_count",
    "Mozak.Expr.constraints_native",
    "Mozak.Expr.constraints_in_circuit"
   ],
   "note": "Proved for every program that builds expressions, every ring and every evaluator that follows the ring's operations. Holds with overflow checks; in a build without them constant folding of plain i64 integers wraps at 64 bits, which constant_folding_wraps exhibits."
  },
  {
   "property": "C30",
   "status": "partial",
   "theorems": [
    "Mozak.Circuits.u8_table_exact",
    "Mozak.Circuits.rangecheck_forged",
    "Mozak.Circuits.rangecheck_sound_partial",
    "Mozak.Circuits.rangecheck_complete"
   ],
   "note": "The 8-bit table is exactly 0..255. The property is FALSE for the 32-bit table: rangecheck_forged makes any field element pass with 1024 extra rows, because the table has no constraints and a row's multiplicity is also the filter of its limb lookups. rangecheck_sound_partial: it holds if multiplicities are genuine counts."
  },
  {
   "property": "C31",
   "status": "proved",
   "theorems": [
    "Mozak.Circuits.skeleton_sound",
    "Mozak.Circuits.skeleton_complete",
    "Mozak.Circuits.skeleton_steps_partial",
    "Mozak.Circuits.skeleton_size"
   ],
   "note": "skeleton_sound: the rows available for lookup are one gap-free chain ending in the single halt, for all tables; skeleton_complete: honest runs generate such a table; skeleton_steps_partial extends it to the instruction tables when their filters are binary (they are not forced to be: C34)."
  },
  {
   "property": "C32",
   "status": "partial",
   "theorems": [
    "Mozak.Circuits.Storage.honest_table_accepted_iff",
    "Mozak.Circuits.Storage.honest_run_accepted_iff",
    "Mozak.Circuits.Storage.empty_read_then_read_unprovable",
    "Mozak.Circuits.Storage.stores_without_call",
    "Mozak.Circuits.Storage.read_without_stores",
    "Mozak.Circuits.Storage.memory_forged_by_tape_table",
    "Mozak.Circuits.Storage.call_start_partial",
    "Mozak.Circuits.Storage.contiguous_delivery_partial",
    "Mozak.Circuits.Storage.honest_table_disciplined",
    "Mozak.Circuits.Storage.table_holds_calls",
    "Mozak.Circuits.Storage.call_lookups"
   ],
   "note": "The property is false of the code: stores_without_call and read_without_stores exhibit, for arbitrary writes and arbitrary announced sizes, accepted tables that break it, and memory_forged_by_tape_table shows the effect on memory; empty_read_then_read_unprovable shows an honest run whose table is rejected. Proved: the exact condition under which honest tables are accepted, what every accepted table does guarantee (call_start_partial), and the full statement under an explicit discipline that honest tables keep."
  },
  {
   "property": "C33",
   "status": "proved",
   "theorems": [
    "Mozak.Circuits.xor_table_sound",
    "Mozak.Circuits.xor_table_complete",
    "Mozak.Circuits.shift_table_sound",
    "Mozak.Circuits.shift_table_full",
    "Mozak.Circuits.shift_table_complete",
    "Mozak.Circuits.shift_table_lookups"
   ],
   "note": "Any satisfying table, used or unused rows; table length below the field order."
  },
  {
   "property": "C34",
   "status": "partial",
   "theorems": [
    "Mozak.Circuits.ghost_register_write",
    "Mozak.Circuits.bltu_taken_forged",
    "Mozak.Circuits.bltu_taken_partial"
   ],
   "note": "FALSE of the code: a cancelling pair of ADD and BLT-taken rows writes any 32-bit value to any register without executing an instruction, and a BLTU can be taken whatever its operands because the range check defined for the BLT-taken table is not part of any lookup. bltu_taken_partial: with that range check the branch is sound."
  },
  {
   "property": "C35",
   "status": "partial",
   "theorems": [
    "Mozak.Circuits.honest_cpu_row_partial",
    "Mozak.Circuits.honest_add_row_partial",
    "Mozak.Circuits.padding_ok",
    "Mozak.Circuits.honest_cpu_trace_partial",
    "Mozak.Circuits.provable_of_decoded",
    "Mozak.Circuits.honest_division_unprovable",
    "Mozak.Circuits.honest_jump_unprovable",
    "Mozak.Circuits.honest_log_unprovable",
    "Mozak.Circuits.pc_wrap_violates",
    "Mozak.Circuits.step_in_one_table"
   ],
   "note": "Proved for all executions whose steps are Provable; the four excluded kinds of step are refuted with concrete runs. CPU and ADD tables."
  },
  {
   "property": "C36",
   "status": "partial",
   "theorems": [
    "Mozak.Circuits.mem_address_sound_partial",
    "Mozak.Circuits.load_sound_partial",
    "Mozak.Circuits.store_sound_partial",
    "Mozak.Circuits.load_word_dst_free",
    "Mozak.Circuits.store_word_value_free",
    "Mozak.Circuits.store_byte_value_free",
    "Mozak.Circuits.load_byte_forged"
   ],
   "note": "Addresses proved; values are right only under conditions the circuit does not enforce; refuted for LW, SW, SB, SH, LB, LBU."
  },
  {
   "property": "C37",
   "status": "partial",
   "theorems": [
    "Mozak.Circuits.ecall_sound_partial",
    "Mozak.Circuits.ecall_target_free"
   ],
   "note": "The selected system call is proved right; the next program counter of a system call is unconstrained: refuted."
  },
  {
   "property": "C38",
   "status": "proved",
   "theorems": [
    "Mozak.Circuits.Lin.column_evaluates",
    "Mozak.Circuits.Lin.circuit_evaluates_same",
    "Mozak.Circuits.Lin.table_evaluates",
    "Mozak.Circuits.Lin.composed_column_combines",
    "Mozak.Circuits.Lin.trace_sums_are_entry_sums",
    "Mozak.Circuits.Lin.negated_filter",
    "Mozak.Circuits.Lin.overflow_panics"
   ],
   "note": "The operators on typed columns panic when a coefficient leaves the 64-bit range (overflow_panics); whenever a column is built, it is right. negated_filter excludes the coefficient -2^63, whose negation overflows."
  },
  {
   "property": "C39",
   "status": "proved",
   "theorems": [
    "Mozak.Circuits.halfword_sound",
    "Mozak.Circuits.fullword_sound"
   ],
   "note": "For every satisfying table whose address and limb cells pass their 32- and 8-bit checks."
  },
  {
   "property": "C40",
   "status": "proved",
   "theorems": [
    "Mozak.Sdk.merkleize_root",
    "Mozak.Sdk.merkleize_sound",
    "Mozak.Sdk.merkleize_empty"
   ],
   "note": "Exact root for every sorted list of u64-addressed leaves on which merkleize returns."
  },
  {
   "property": "C41",
   "status": "partial",
   "theorems": [
    "Mozak.Sdk.merkleize_returns_iff_partial",
    "Mozak.Sdk.merkleize_diverges_in_release",
    "Mozak.Sdk.merkleize_panics_in_debug",
    "Mozak.Sdk.merkleize_not_total",
    "Mozak.Sdk.topBitOnly_sorted_iff",
    "Mozak.Sdk.cast_list_commitment_returns"
   ],
   "note": "The property as stated is false: the exact set of inputs on which merkleize returns is proved (iff), and on the complement it is proved to diverge (release) or panic (debug)."
  },
  {
   "property": "C42",
   "status": "proved",
   "theorems": [
    "Mozak.Sdk.canonical_hints_correct",
    "Mozak.Sdk.temporal_hints_correct",
    "Mozak.Sdk.canonical_hints_panic"
   ],
   "note": "Hints are mutually inverse permutations; panics only when an index exceeds u32."
  },
  {
   "property": "C43",
   "status": "proved",
   "theorems": [
    "Mozak.Sdk.native_events_accepted",
    "Mozak.Sdk.accepted_events_sound",
    "Mozak.Sdk.accepted_prefix_sound",
    "Mozak.Sdk.emit_ignores_owner",
    "Mozak.Sdk.tape_order_not_enforced",
    "Mozak.Sdk.canonical_order_is_not_address_order"
   ],
   "note": "The last three record observable weaknesses of the check (owner not compared, tape order not enforced, byte-lexicographic order)."
  },
  {
   "property": "C44",
   "status": "partial",
   "theorems": [
    "Mozak.Sdk.cast_list_spec",
    "Mozak.Sdk.call_tape_sound_partial",
    "Mozak.Sdk.own_calls_can_be_skipped",
    "Mozak.Sdk.script_accepted_iff",
    "Mozak.Sdk.native_tape_accepted_iff_partial",
    "Mozak.Sdk.native_tape_rejected",
    "Mozak.Sdk.cast_list_sorted",
    "Mozak.Sdk.cast_list_canonical"
   ],
   "note": "False as stated in two ways, both proved with witnesses (own calls can be skipped; native tapes with nested calls can be rejected); exact acceptance condition proved."
  },
  {
   "property": "C45",
   "status": "partial",
   "theorems": [
    "Mozak.Sdk.tape_agrees_iff_partial",
    "Mozak.Sdk.input_tape_is_cursor_partial",
    "Mozak.Sdk.sequential_reads",
    "Mozak.Sdk.seek_is_not_std",
    "Mozak.Sdk.forward_seek_aborts",
    "Mozak.Sdk.short_tape_reads_zeros"
   ],
   "note": "Reads in order proved for all histories of supported requests; the exact set of requests agreeing with std::io is proved (iff); the rest is refuted with proofs."
  },
  {
   "property": "C46",
   "status": "proved",
   "theorems": [
    "Mozak.Sdk.padding_injective"
   ],
   "note": ""
  },
  {
   "property": "C47",
   "status": "proved",
   "theorems": [
    "Mozak.Sdk.words_digest_words",
    "Mozak.Sdk.digest_words_digest",
    "Mozak.Sdk.address_roundtrip"
   ],
   "note": ""
  },
  {
   "property": "C48",
   "status": "partial",
   "theorems": [
    "Mozak.Sdk.allocations_disjoint",
    "Mozak.Sdk.allocation_fails_only_when_full",
    "Mozak.Sdk.wrapping_allocator_overlaps"
   ],
   "note": "Proved for builds with overflow checks and for all histories that do not exhaust the address space; refuted for builds without overflow checks."
  },
  {
   "property": "C49",
   "status": "proved",
   "theorems": [
    "Mozak.Sdk.native_execution",
    "Mozak.Sdk.call_brackets_identity"
   ],
   "note": ""
  },
  {
   "property": "C50",
   "status": "proved",
   "theorems": [
    "Mozak.Node.address_path_bits"
   ],
   "note": ""
  },
  {
   "property": "C51",
   "status": "partial",
   "theorems": [
    "Mozak.Node.child_then_parent",
    "Mozak.Node.child_of_lowest",
    "Mozak.Node.parent_then_child",
    "Mozak.Node.compare_partial",
    "Mozak.Node.common_ancestor_partial",
    "Mozak.Node.compare_top_leaf_refuted",
    "Mozak.Node.common_ancestor_panics",
    "Mozak.Node.common_ancestor_wrong_in_release"
   ],
   "note": "Proved for all valid branches except pairs that make the code shift a u64 by 64 (top branch against a leaf address; leaf addresses in different halves of the address space), where the property is refuted: panic with overflow checks, wrong answer without."
  },
  {
   "property": "C52",
   "status": "proved",
   "theorems": [
    "Mozak.Node.reduce_tree_in_order",
    "Mozak.Node.reduce_tree_assoc"
   ],
   "note": ""
  },
  {
   "property": "C53",
   "status": "proved",
   "theorems": [
    "Mozak.Node.reduce_by_address_root",
    "Mozak.Node.proposer_event_root_eq_merkleize"
   ],
   "note": "For address-sorted lists; also equals whatever the SDK's merkleize returns."
  },
  {
   "property": "C54",
   "status": "proved",
   "theorems": [
    "Mozak.Node.state_is_map",
    "Mozak.Node.conflict_after_read_accepted"
   ],
   "note": "The precise conflict rule is Spec.Acceptable; the stricter rule is refuted."
  },
  {
   "property": "C55",
   "status": "proved",
   "theorems": [
    "Mozak.Node.finalize_keeps_survivors"
   ],
   "note": ""
  },
  {
   "property": "C56",
   "status": "partial",
   "theorems": [
    "Mozak.Node.merge_events_partial",
    "Mozak.Node.merge_events_returns_partial",
    "Mozak.Node.merge_third_event_panics",
    "Mozak.Node.merge_halves_panics",
    "Mozak.Node.merge_out_of_order_in_release",
    "Mozak.Node.event_tree_wellformed",
    "Mozak.Node.merge_branch_partial"
   ],
   "note": "Full claim (merging always returns an ordered tree with exactly the events of both) is false of the code: refuted by witnesses; proved whenever the merge returns in a checked build, and that it returns for trees without shared addresses in one half of the address space."
  },
  {
   "property": "C57",
   "status": "partial",
   "theorems": [
    "Mozak.Node.root_proof_partial",
    "Mozak.Node.root_proof_stale_after_prune"
   ],
   "note": "Proved for histories in which no touched address ends a block absent; for the others the claim is false of the code (finalization keeps a stale proof), shown by a witness."
  },
  {
   "property": "C58",
   "status": "partial",
   "theorems": [
    "Mozak.Node.ingest_any_order_partial",
    "Mozak.Node.ingest_twice_refused",
    "Mozak.Node.ingest_from_first_never_completes",
    "Mozak.Node.ingest_power_of_two_never_completes",
    "Mozak.Node.ingest_wrong_slot"
   ],
   "note": "Proved for cast lists of 2^b-2^m+1 members; for all other lengths the claim is false of the code (path one bit too long or tree not aligned), proved as refutations."
  },
  {
   "property": "C59",
   "status": "proved",
   "theorems": [
    "Mozak.Node.cast_root_eq_commitment"
   ],
   "note": ""
  },
  {
   "property": "C60",
   "status": "proved",
   "theorems": [
    "Mozak.Recproofs.leaf_address_is_position",
    "Mozak.Recproofs.leaf_address_from_root",
    "Mozak.Recproofs.addr_root_present_iff",
    "Mozak.Recproofs.honestAddr_valid",
    "Mozak.Recproofs.misplaced_leaf_rejected"
   ],
   "note": "For trees of any height below 64 (the field size bounds addresses; a perfect tree of height 64 would have more leaves than addresses).  Trees of proofs: that an accepted proof really is the root of such a tree is C70."
  },
  {
   "property": "C61",
   "status": "proved",
   "theorems": [
    "Mozak.Recproofs.summary_commits_to_present_leaves",
    "Mozak.Recproofs.sum_root",
    "Mozak.Recproofs.sumExample_valid"
   ],
   "note": "The root is present iff some leaf is; its hash is the root of the tree with the absent leaves contracted."
  },
  {
   "property": "C62",
   "status": "proved",
   "theorems": [
    "Mozak.Recproofs.unpruned_root",
    "Mozak.Recproofs.unpruned_root_binds",
    "Mozak.Recproofs.unpruned_complete",
    "Mozak.Recproofs.unpruned_vm_root_binds",
    "Mozak.Recproofs.unpruned_vm_complete"
   ],
   "note": "Both hashings of the branch: field hashing (the root is the Merkle root of the leaves) and byte-wise hashing (`vm_hashing`), where the digest is that of some byte split (see C69), so the theorems are that the root still binds the leaves and that the native byte-wise root has a proof."
  },
  {
   "property": "C63",
   "status": "partial",
   "theorems": [
    "Mozak.Recproofs.merge_is_interleaving",
    "Mozak.Recproofs.merge_no_loss",
    "Mozak.Recproofs.every_interleaving_has_proof",
    "Mozak.Recproofs.merge_proof_is_interleaving_partial",
    "Mozak.Recproofs.forged_merge"
   ],
   "note": "Proved for every tree of merge proofs (merge_is_interleaving, and the converse every_interleaving_has_proof).  FALSE of accepted proofs alone: the branch circuit does not check its public verifier data (forged_merge), so merge_proof_is_interleaving_partial assumes the caller compared it."
  },
  {
   "property": "C64",
   "status": "proved",
   "theorems": [
    "Mozak.Recproofs.delta_is_combined_effect",
    "Mozak.Recproofs.delta_proof_iff",
    "Mozak.Recproofs.exampleDelta_accumulates"
   ],
   "note": "delta_proof_iff characterises the provable deltas exactly.  Event types other than 0..5 are accepted and contribute nothing."
  },
  {
   "property": "C65",
   "status": "partial",
   "theorems": [
    "Mozak.Recproofs.match_leaf_iff",
    "Mozak.Recproofs.match_leaf_authorised_partial",
    "Mozak.Recproofs.match_tree",
    "Mozak.Recproofs.overdraft_accepted"
   ],
   "note": "match_leaf_iff is an exact characterisation.  FALSE in part: writes need not be by the owner (C71), credits wrap around in the field (overdraft_accepted)."
  },
  {
   "property": "C66",
   "status": "proved",
   "theorems": [
    "Mozak.Recproofs.state_update_sound",
    "Mozak.Recproofs.state_update_from_known_state",
    "Mozak.Recproofs.state_update_complete",
    "Mozak.Recproofs.merkle_binds"
   ],
   "note": "For state trees of height below 64; state_update_complete is the converse for the honest prover."
  },
  {
   "property": "C67",
   "status": "partial",
   "theorems": [
    "Mozak.Recproofs.block_chain_partial",
    "Mozak.Recproofs.block_chain_accepted",
    "Mozak.Recproofs.forged_block",
    "Mozak.Recproofs.forged_block_no_chain"
   ],
   "note": "FALSE of the code: verify does not compare the public verifier data with the block circuit's own, so a proof of the base circuit is accepted as any earlier history (forged_block).  block_chain_partial: with the comparison there is an unbroken chain whose length is the height; block_chain_accepted is the converse."
  },
  {
   "property": "C68",
   "status": "partial",
   "theorems": [
    "Mozak.Sdk.merkleize_is_tree",
    "Mozak.Sdk.root_binds_digests",
    "Mozak.Sdk.tree_leaves",
    "Mozak.Sdk.root_binds_partial",
    "Mozak.Sdk.root_not_binding_across_lengths"
   ],
   "note": "Explicit about collisions: equal roots give equal digests in order for arbitrary lists, unless two hashed pairs collide or a leaf is itself the hash of a pair; equal addresses make the second exception unnecessary. Without it the property is false across lengths, as for the cast list commitment (witness)."
  },
  {
   "property": "C69",
   "status": "partial",
   "theorems": [
    "Mozak.Recproofs.splitBytes_iff",
    "Mozak.Recproofs.byte_split_canonical",
    "Mozak.Recproofs.byte_split_ambiguous",
    "Mozak.Recproofs.byte_hash_not_canonical",
    "Mozak.Recproofs.byte_hash_binds"
   ],
   "note": "FALSE of the code: an element below 2^32-1 has two accepted byte splits (value and value + p), so a byte-wise hash in a proof need not be that of the canonical bytes.  Proved: canonical for the other elements (byte_split_canonical), and the hash still binds the elements (byte_hash_binds)."
  },
  {
   "property": "C70",
   "status": "partial",
   "theorems": [
    "Mozak.Recproofs.accepted_branch_tree_partial",
    "Mozak.Recproofs.valid_tree_accepted",
    "Mozak.Recproofs.forged_children_accepted",
    "Mozak.Recproofs.accepted_branch_step",
    "Mozak.Recproofs.forged_address_root"
   ],
   "note": "FALSE of the code: the public `verifier` of an unbounded proof is the one its children are checked against, and the consumers never compare it with the branch circuit's own; a forged child (proof of another circuit with the same shape) is accepted.  accepted_branch_tree_partial: with the comparison the whole tree is certified."
  },
  {
   "property": "C71",
   "status": "partial",
   "theorems": [
    "Mozak.Recproofs.write_by_stranger_accepted",
    "Mozak.Recproofs.debit_by_stranger_accepted",
    "Mozak.Recproofs.give_is_by_owner_partial"
   ],
   "note": "FALSE of the code: old_owner is connected only when an ownership event is present, so a write or a debit by anybody is accepted.  give_is_by_owner_partial: transfers of ownership are by the owner."
  },
  {
   "property": "C72",
   "status": "partial",
   "theorems": [
    "Mozak.Recproofs.ensure_not_enforced",
    "Mozak.Recproofs.ensure_enforced_with_write_partial"
   ],
   "note": "FALSE of the code: the ensured value is connected to the object only if there is also a write."
  },
  {
   "property": "C73",
   "status": "proved",
   "theorems": [
    "Mozak.Recproofs.event_root_sound",
    "Mozak.Recproofs.event_root_determined",
    "Mozak.Recproofs.event_roots_agree",
    "Mozak.Recproofs.event_root_complete"
   ],
   "note": "Recursion idealised: a verified proof means its circuit's relation holds; hash collisions excluded only among the inputs hashed (GoodHash)."
  },
  {
   "property": "C74",
   "status": "partial",
   "theorems": [
    "Mozak.Recproofs.program_leaf_sound_partial",
    "Mozak.Recproofs.program_id_not_tied",
    "Mozak.Recproofs.forged_program_event"
   ],
   "note": "Property is false: the program circuit's verifier data is a private witness and its hash program_verifier_hash is computed but never connected to the program id, so a leaf proof for any id and any events exists whenever some circuit with the common data accepts everything (negation proved). The partial theorem ties the leaf to some program circuit."
  },
  {
   "property": "C75",
   "status": "proved",
   "theorems": [
    "Mozak.Recproofs.transactions_sound",
    "Mozak.Recproofs.cast_list_determined"
   ],
   "note": "Programs are those some program circuit accepted (C74). cast_list_determined assumes that ids are not hash values of the inputs considered."
  },
  {
   "property": "C76",
   "status": "proved",
   "theorems": [
    "Mozak.Sdk.event_hash_input",
    "Mozak.Sdk.event_hash_binds",
    "Mozak.Sdk.canonical_event_binds",
    "Mozak.Sdk.event_commitment_binds",
    "Mozak.Sdk.emitted_events_bound"
   ],
   "note": "Under collision-freeness of the hash on exactly the byte strings hashed for the two commitments."
  },
  {
   "property": "C77",
   "status": "proved",
   "theorems": [
    "Mozak.Sdk.clean_shutdown_certifies"
   ],
   "note": "The event part is stated for tapes in order of address; for other orders the commitment is the one merkleize computes (C40)."
  },
  {
   "property": "C78",
   "status": "proved",
   "theorems": [
    "Mozak.Node.block_root_covers_completed",
    "Mozak.Node.event_proof_root_eq",
    "Mozak.Node.other_transactions_untouched",
    "Mozak.Node.completed_iff_all_arrived",
    "Mozak.Node.comb_fails_only_with_merge"
   ],
   "note": "For every history of calls that does not panic (builds with overflow checks, events given in order of address). When merging panics is C56, when a transaction can complete is C58."
  },
  {
   "property": "C79",
   "status": "proved",
   "theorems": [
    "Mozak.Recproofs.block_step_sound",
    "Mozak.Recproofs.block_events_exact",
    "Mozak.Recproofs.block_owner_change_authorised",
    "Mozak.Recproofs.block_untouched"
   ],
   "note": "Owner checks are for creation and deletion as in the circuit; writes by non-owners are C71. Programs are those some program circuit accepted (C74)."
  },
  {
   "property": "C80",
   "status": "partial",
   "theorems": [
    "Mozak.Recproofs.block_history_partial",
    "Mozak.Recproofs.owner_kept",
    "Mozak.Recproofs.data_kept",
    "Mozak.Recproofs.credits_add_up"
   ],
   "note": "owner_kept, data_kept and credits_add_up hold for every history. That an accepted proof has a history needs the public verifier to be the block circuit's own, which verify does not check (C67)."
  },
  {
   "property": "C81",
   "status": "partial",
   "theorems": [
    "Mozak.Circuits.Poseidon.permutation_sound_partial",
    "Mozak.Circuits.Poseidon.permutation_complete",
    "Mozak.Circuits.Poseidon.permutation_forged",
    "Mozak.Circuits.Poseidon.permutation_not_forced",
    "Mozak.Circuits.Poseidon.hash_call_sound_partial",
    "Mozak.Circuits.Poseidon.sponge_complete",
    "Mozak.Circuits.Poseidon.any_message_hashes_to_zero",
    "Mozak.Circuits.Poseidon.ghost_hash_write",
    "Mozak.Circuits.Poseidon.output_address_free",
    "Mozak.Circuits.Poseidon.hash_without_output",
    "Mozak.Circuits.Poseidon.digest_bytes_partial",
    "Mozak.Circuits.Poseidon.digest_bytes_ambiguous",
    "Mozak.Circuits.Poseidon.digest_bytes_complete",
    "Mozak.Circuits.Poseidon.honest_sponge_trace",
    "Mozak.Circuits.Poseidon.honest_hash_tables"
   ],
   "note": "Completeness is proved for every run; soundness is false of the code and the negation is proved (permutation_forged, any_message_hashes_to_zero: the columns holding the cubes of S-box inputs are not constrained, so every message can be given the digest 0; ghost_hash_write, output_address_free, hash_without_output, digest_bytes_ambiguous are further gaps). The _partial theorems say what holds under the missing constraints."
  },
  {
   "property": "C82",
   "status": "partial",
   "theorems": [
    "Mozak.Circuits.Commit.public_values_fixed_partial",
    "Mozak.Circuits.Commit.full_read_is_public_partial",
    "Mozak.Circuits.Commit.full_reads_agree",
    "Mozak.Circuits.Commit.honest_commitments",
    "Mozak.Circuits.Commit.honest_public_accepted",
    "Mozak.Circuits.Commit.order_not_enforced",
    "Mozak.Circuits.Commit.public_values_forged",
    "Mozak.Circuits.Commit.unread_commitment_arbitrary",
    "Mozak.Circuits.Commit.short_read_unprovable"
   ],
   "note": "False of the code, negation proved: the challenges do not depend on the public values, so after they are drawn 26 of the 32 values can be chosen freely and six more computed (public_values_forged), and any reordering is accepted (order_not_enforced). Proved: values fixed before the challenges are a permutation of the flagged rows except for a negligible fraction of challenges; a full read delivers the public values up to order; all full reads agree. Honest runs: exactly those whose reads ask for at least 32 bytes balance (honest_commitments, short_read_unprovable)."
  },
  {
   "property": "C83",
   "status": "partial",
   "theorems": [
    "Mozak.Circuits.memory_table_holds_history_partial",
    "Mozak.Circuits.memory_table_accepted_partial",
    "Mozak.Circuits.source_tables_accepted",
    "Mozak.Circuits.memory_lookups_balance_partial",
    "Mozak.Circuits.wrapped_digest_rejected",
    "Mozak.Circuits.overlap_rejected"
   ],
   "note": "Proved for every run of every program of at most 2^30 - 2 steps, in any order of the program's memory maps and with any padding, except runs in which a hash digest wraps around the address space and programs whose read-only and writable memories overlap; for those the claim is false of the code (wrapped_digest_rejected, overlap_rejected)."
  },
  {
   "property": "C84",
   "status": "proved",
   "theorems": [
    "Mozak.Circuits.register_table_contents",
    "Mozak.Circuits.register_tables_accepted",
    "Mozak.Circuits.register_history_values",
    "Mozak.Circuits.decoded_rd"
   ],
   "note": "Contents, acceptance (constraints, range checks, lookups) and values of the generated register tables for every run from the initial state with fewer than 2^31 steps whose instructions without destination name x0 (true of decoded ones: decoded_rd)."
  },
  {
   "property": "C85",
   "status": "partial",
   "theorems": [
    "Mozak.Circuits.honest_proof_exists_partial",
    "Mozak.Circuits.honest_proof_verifies_partial",
    "Mozak.Circuits.honest_run_without_proof"
   ],
   "note": "False in general: honest_run_without_proof gives a completed run whose generated tables violate the constraints. Proved for all runs that satisfy FullRun; each excluded case is a failure proved elsewhere (overlap_rejected, wrapped_digest_rejected, honest_division_unprovable, honest_jump_unprovable, honest_log_unprovable, empty_read_then_read_unprovable, short_read_unprovable), or a bound on the run's length (2^30 steps)."
  },
  {
   "property": "C86",
   "status": "partial",
   "theorems": [
    "Mozak.Circuits.Shrink.shrink_ok_partial",
    "Mozak.Circuits.Shrink.shrink_panics",
    "Mozak.Circuits.Shrink.shrink_incomplete"
   ],
   "note": "False of the code: the loop wraps the circuit it was called with instead of the last wrapper, so a second round never lowers the degree and panics (shrink_panics, shrink_incomplete). Proved: the exact condition for success (a single wrap meets the target) and that the result is a valid proof with the same public inputs."
  },
  {
   "property": "C87",
   "status": "partial",
   "theorems": [
    "Mozak.Circuits.ProgramId.program_id_deterministic",
    "Mozak.Circuits.ProgramId.program_id_identifies_partial",
    "Mozak.Circuits.ProgramId.program_id_forgets_load_sign",
    "Mozak.Circuits.ProgramId.program_id_binds",
    "Mozak.Circuits.ProgramId.program_id_length"
   ],
   "note": "False of the code: the packed instruction of the program table leaves out the signedness of loads, so LB and LBU (LH and LHU) programs share their id (program_id_forgets_load_sign). Everything else is identified (program_id_identifies_partial)."
  },
  {
   "property": "C88",
   "status": "partial",
   "theorems": [
    "Mozak.Circuits.ProgramId.circuit_id_complete",
    "Mozak.Circuits.ProgramId.circuit_id_sound_partial",
    "Mozak.Circuits.ProgramId.circuit_id_binds_partial",
    "Mozak.Circuits.ProgramId.circuit_id_ambiguous",
    "Mozak.Circuits.ProgramId.circuit_id_top_bytes_free",
    "Mozak.Circuits.ProgramId.circuit_id_collides"
   ],
   "note": "False of the code: limbs below 2^32-1 have two byte splits, and, since plonky2 adds no gate for a range check of zero bits, the top byte of every limb is free, so that different programs have common ids. Proved for limbs of at least 2^32-1 and, as to binding, for range checks of zero bits that mean zero."
  },
  {
   "property": "C89",
   "status": "proved",
   "theorems": [
    "Mozak.Circuits.Air.table_check_sound",
    "Mozak.Circuits.Air.table_check_complete",
    "Mozak.Circuits.Air.air_sound",
    "Mozak.Circuits.Air.air_complete",
    "Mozak.Circuits.Air.satisfied_iff",
    "Mozak.Circuits.Air.fullAir_rows"
   ],
   "note": "Openings are taken to be the values of committed polynomials of the right degree (FRI is not modelled); the challenges are arbitrary, not hashes. The quotients are computed as polynomial quotients, the code interpolates them on a coset."
  },
  {
   "property": "C90",
   "status": "proved",
   "theorems": [
    "Mozak.Circuits.Air.all_tables_poly",
    "Mozak.Circuits.Air.degreeBound_lt"
   ],
   "note": "The tables without constraints (Unstark) need none. The columns of each table are listed in Degree.lean."
  },
  {
   "property": "C91",
   "status": "partial",
   "theorems": [
    "Mozak.Circuits.Plumb.openings_used_once",
    "Mozak.Circuits.Plumb.prover_openings_accepted",
    "Mozak.Circuits.Plumb.verifier_decides_partial",
    "Mozak.Circuits.Plumb.circuit_decides",
    "Mozak.Circuits.Plumb.circuit_opening_count",
    "Mozak.Circuits.Plumb.circuit_openings_used_once",
    "Mozak.Circuits.Plumb.extra_values_accepted",
    "Mozak.Circuits.Plumb.too_few_openings_panic"
   ],
   "note": "False of the native verifier when the proof gives more value lists than there are public sub tables (extra_values_accepted: the second challenge's sum is then compared with the extra values under the first challenge); proved when the numbers agree, and without condition for the recursive verifier, whose circuit fixes the numbers. The native verifier aborts rather than returning an error when a table has too few openings (too_few_openings_panic)."
  },
  {
   "property": "C92",
   "status": "proved",
   "theorems": [
    "Mozak.Circuits.Poseidon.external_is_circulant",
    "Mozak.Circuits.Poseidon.internal_is_diagonal_plus_ones",
    "Mozak.Circuits.Poseidon.permutation_bijective",
    "Mozak.Circuits.Poseidon.internal_injective"
   ],
   "note": "The constants are in the plonky2 fork and not in this repository: the theorems hold for all of them, and internal_injective says which diagonals make the internal layer invertible."
  },
  {
   "property": "C93",
   "status": "proved",
   "theorems": [
    "Mozak.Circuits.Batch.sorted_degrees",
    "Mozak.Circuits.Batch.batch_places",
    "Mozak.Circuits.Batch.batch_openings"
   ],
   "note": "Hypotheses: no kind of table occurs twice, all polynomials of a table have its length, and (for the Merkle layers) every table has at least one polynomial in the oracle, which the prover asserts."
  },
  {
   "property": "C94",
   "status": "partial",
   "theorems": [
    "Mozak.Circuits.Batch.batch_accepts_any_trace",
    "Mozak.Circuits.Batch.not_batch_sound",
    "Mozak.Circuits.Batch.batch_sound_partial",
    "Mozak.Circuits.Batch.batch_complete"
   ],
   "note": "False of the code: batch_verify_proof never calls validate_proof_shape for the tables in the batch, so the last table of a degree can leave out the openings of its quotients, for which the code then checks nothing, and commit to zero quotients; batch_accepts_any_trace shows that any trace passes. batch_sound_partial: with the shape check it holds. FRI is idealised (the claimed openings and the committed values are the same polynomial in the batching challenge)."
  },
  {
   "property": "C95",
   "status": "partial",
   "theorems": [
    "Mozak.Circuits.Batch.same_transcript_iff",
    "Mozak.Circuits.Batch.not_same_transcript",
    "Mozak.Circuits.Batch.same_transcript_partial"
   ],
   "note": "False for lists in another order than that of the tables (the prover goes through the tables, the verifier through the list); it holds exactly for lists in table order, among them PUBLIC_TABLE_KINDS."
  },
  {
   "property": "C96",
   "status": "proved",
   "theorems": [
    "Mozak.Circuits.Batch.arity_schedule"
   ],
   "note": ""
  },
  {
   "property": "C97",
   "status": "partial",
   "theorems": [
    "Mozak.Signatures.signs_iff",
    "Mozak.Signatures.signs_complete",
    "Mozak.Signatures.not_key_unique",
    "Mozak.Signatures.key_unique_partial"
   ],
   "note": "The uniqueness part is false of the circuit: it compares the 64-bit words of the public key as field elements, so two byte strings that differ by the order of the field in a word are both accepted. key_unique_partial: the keys agree modulo the order of the field, word by word, and there is only one if no hash element is below 2^64 - p. The hash function is a parameter; the proof system is not modelled."
  },
  {
   "property": "C98",
   "status": "partial",
   "theorems": [
    "Mozak.Signatures.bytes_forced",
    "Mozak.Signatures.key_is_digest",
    "Mozak.Signatures.not_own_key",
    "Mozak.Signatures.own_key_partial"
   ],
   "note": "The second part is false: hash_private_key passes the digest through four field elements, so it comes back changed (or, with debug assertions, panics) if one of its 64-bit words is at least the order of the field; own_key_partial: it works exactly for the other digests. SHA-256 and Keccak-256 themselves (plonky2_crypto) are parameters."
  },
  {
   "property": "C99",
   "status": "proved",
   "theorems": [
    "Mozak.Apps.counter_run_iff",
    "Mozak.Apps.counter_complete"
   ],
   "note": "rkyv is a parameter (any partial decoder; reading back what was encoded is assumed for completeness only)."
  }
 ]
}
