{
 "9": {
  "tightened": [
   "C32_runs_partial",
   "C32_once_partial",
   "C32_pattern_partial",
   "C32_pattern_runs_partial"
  ],
  "remark": "survived; the theorems about tags (C32) were added because of it, see the second attempt with the same edit"
 },
 "70": {
  "remark": "equivalent for FileReader: eof is only looked at after a short read"
 },
 "31": {
  "remark": "equivalent edit; the proof script noticed the change"
 },
 "75": {
  "remark": "equivalent edit; the proof script noticed the change"
 },
 "84": {
  "remark": "equivalent edit; the proof script noticed the change"
 },
 "115": {
  "remark": "survives: only differs when the buffer grows, which C28's theorem (partial) excludes"
 },
 "117": {
  "remark": "equivalent edit; the proof script noticed the change"
 },
 "165": {
  "remark": "survives: the consumed position only matters for a refill, and the schema theorems are about texts that fit the first read (< 24000 bytes)"
 },
 "168": {
  "remark": "survives: with texts that fit the first read the schema lexer never fails, so the conversion is unreachable there"
 },
 "185": {
  "remark": "survives: as attempt 165, the consumed position only matters for a refill, and the schema theorems are about texts that fit the first read (< 24000 bytes)"
 },
 "235": {
  "remark": "equivalent: the bound on the iterations is an artefact of the model, and the theorems are about bounds that suffice"
 },
 "293": {
  "remark": "equivalent on reachable states: generate() has moved the rules away (finding 29), so report_error never finds a literal rule and lists symbol names only; the theorems (and SchemaEnv) use the empty list of rules"
 }
}